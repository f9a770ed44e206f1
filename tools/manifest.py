import json
claims=[]
def c(prop,status,ths,note,ns=None):
    claims.append({"property":prop,"status":status,"theorems":[ (ns+"."+t if ns and not t.startswith("NgsAMG") else t) for t in ths],"note":note})
S="NgsAMG.SortedArray"; T="NgsAMG.Traversal"
c("C01","proved",["find_correct","indOfMax_correct","removeEntry_correct"],"bisection search, max search and removal in sorted arrays, out-of-range access is an explicit outcome",S)
c("C02","proved",["mergePos_correct","insertSorted_correct","insertUnique_correct","insertNodups_correct","insertAll_correct","insertAllMulti_correct"],"insertion and histories of insertions",S)
c("C03","proved",["NgsAMG.Traversal.merge2_correct","NgsAMG.Traversal.mergeAIntoB_correct","NgsAMG.Traversal.mergeTable_correct","NgsAMG.MergeArrays1.run_correct","NgsAMG.MergeArrays1.run_sentinel_entry_ub"],"two-way, table and k-way sentinel merge; the sentinel merge needs entries below the sentinel, shown to be necessary")
c("C04","proved",["iterABC_correct","iterInter_correct","iterAC_correct","iterANotB_correct","setMinus_correct","isIntersectEmpty_correct","intersectSorted_correct","partitionAB_correct","partitionAB_needs_subset"],"callback traces of all sorted-set traversals",T)
c("C05","proved",["posSorted_correct","posSorted_needs_subset"],"subset precondition is necessary",T)
c("C06","proved",["applyInPlace_correct","applyAndKeep_correct","applyBuffered_correct","invertPermutation_correct","applyInPlace_needs_perm"],"",  "NgsAMG.Permutation")
c("C07","partial",["lexSmaller_iff","lexSmaller_strictTotal","lt2_strictTotal","lt3_strictTotal","lt4_undefined","lt5_not_antisymm","lt5_not_strictTotal","lt5_partial"],"true for arrays, pairs, triples; the 4- and 5-tuple operators violate the property, shown by witnesses","NgsAMG.Orders")
c("C08","partial",["getOpt_correct","move_assign_getOpt","copy_getOpt_partial","copy_getOpt_wrong","copy_not_correct","setFromFlagsEnum_correct","setFromFlagsBool_correct","setEnumOpt_correct"],"lookup and move proved; the copy constructor drops the default, counterexample proved","NgsAMG.Options")
c("C09","partial",["orAssign_getOpt_partial","orAssign_not_correct","orAssign_getOpt_neg"],"|= is wrong when the special values of the operands have different levels; witness and exact true part proved","NgsAMG.Options")
G="NgsAMG.GS"
c("C31","proved",["smoothRES_eq_smoothRHS","smooth_contract"],"block entries of any size, any range/direction/free set",G)
c("C32","proved",["smoothRHS_correct","smooth_frame"],"sweep = textbook sweep over the explicit row list",G)
c("C33","proved",["smooth_energy","smooth_fixed","diagOK_inv","diagOK_of_pinv"],"exact and pseudo inverse diagonals",G)
c("C34","proved",["smoothBack_adjoint","smoothSymm_symmetric"],"",G)
c("C35","partial",["gss4_eq_gss3_repl","gss4_eq_gss3_own_partial","gss4_own_diag_wrong"],"agreement proved with given diagonals (the only use inside the library) and for full subsets; with self-computed diagonals on a strict subset the code reads the wrong entry: counterexample proved",G)
import os
here=os.path.dirname(os.path.abspath(__file__))
f=os.path.join(here,"manifest_more.py")
if os.path.exists(f): exec(open(f).read())
claims.sort(key=lambda d:d["property"])
json.dump({"claims":claims},open(os.path.join(here,"..","MANIFEST.json"),"w"),indent=1)
print(len(claims))
