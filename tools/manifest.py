#!/usr/bin/env python3
"""Regenerates /verif/MANIFEST.json."""
import json
C=[]
def c(prop, status, theorems, note=""):
    C.append(dict(property=prop, status=status, theorems=["Verif."+t for t in theorems], note=note))
c("C01","proved",["C01_add","C01_add_dense","C01_stretch_refuted","C01_vector_refuted"],"proved for well-formed operands with compatible batches, no stretched rigid operand and exact low-rank merges")
c("C02","proved",["C02_multiply","C02_multiply_dense","C02_kron_refuted","C02_stretch_refuted"],"proved for well-formed operands in the stated domain")
c("C03","proved",["C03_matmul","C03_matmul_dense"],"")
c("C04","proved",["C04_dense"],"")
c("C05","proved",["C05_shape","C05_shape_split","C05_shape_dense"],"")
c("C06","proved",["C06_transpose","C06_transpose_kind","C06_transpose_twice"],"")
c("C08","proved",["C08_add_scalar","C08_mul_scalar","C08_scalar_mul","C08_promote"],"")
c("C11","proved",["C11_diag","C11_trace","C11_kron_refuted"],"for Kronecker products with square right factors")
c("C07","proved",["C07_negative","C07_subtract","C07_divide","C07_divide_scalar"],"")
c("C38","proved",["C38_matmul3"],"")
c("C10","proved",["C10_add","C10_multiply","C10_matmul","C10_transpose"],"")
c("C12","proved",["C12_sum_all","C12_sum_axis","C12_axis_rejected","C12_mean_all","C12_mean_axis","C12_stretch_refuted"],"")
c("C33","proved",["C33_lowrank_sum","C33_batched_refuted","C33_tolerance_refuted"],"")
c("C34","proved",["C34_abs","C34_sqrt","C34_power","C34_power_zero_refuted","C34_sqrt_kron_refuted"],"integer exponents; sqrt over any lawful backend square root")
c("C18","proved",["C18_kron","C18_kron_succeeds","C18_matmul_kron","C18_batch_unchecked"],"")
c("C13","proved",["C13_take","C13_axis_rejected","C13_lowrank_batched_refuted","C13_zero_out_of_range"],"index lists and masks of rank 1; any recursion depth m")
c("C14","proved",["C14_submatrix","C14_diagonal_repeated_refuted","C14_triangular_permuted_refuted"],"index lists and masks of rank 1; any recursion depth m")
c("C15","proved",["C15_block","C15_block_zero","C15_block_diagonal"],"")
c("C16","proved",["C16_block_diag","C16_block_diag_tiled","C16_block_diag_zero","C16_block_diag_diagonal","C16_single_numeric_rejected","C16_single_numeric_refuted"],"B.squeeze of a one-element list makes align_batch return the single operand itself, so that B.block_diag iterates over its first axis.")
c("C17","proved",["C17_concat","C17_concat_tiled","C17_tile","C17_tile_rejected","C17_reshape","C17_reshape_rejected"],"")
c("C28","proved",["C28_broadcast_batch_to","C28_broadcast_to"],"")
c("C32","proved",["C32_align","C32_align_total"],"")
c("C39","proved",["C39_add","C39_multiply","C39_matmul","C39_expression","C39_logdet","C39_iqf","C39_iqf_diag","C39_ratio","C39_diag","C39_trace","C39_kron"],"C39_expression: whole expressions with inverses, quotients and solves, over different batches; a slice of the batch is the case of the empty batch shape")
c("C27","proved",["Py."+x for x in "C27_result C27_succeeds C27_raises C27_compatible C27_comm C27_idem C27_unit C27_assoc C27_many C27_many_perm C27_many_raises C27_broadcast C27_broadcast_many".split()],"shape.py in Python axis order")
c("C29","proved",["C29_diagonal","C29_triangular","C29_zero","C29_constant","C29_lowrank","C29_lowrank_wf","C29_lowrank_unchecked","C29_woodbury","C29_dense","C29_of_matrix"],"LowRank(left, middle=...) without right does not check the columns of middle: C29_lowrank_unchecked")
c("C31","proved",["C31_add","C31_multiply","C31_matmul","C31_unambiguous","C31_zero_zero","C31_solve","C31_cholesky_solve","C31_divide","C31_kron","C31_kron_zero","C31_ratio"],"B.kron of two Zero matrices recurses forever if proven() gives the method registered second the higher precedence (C31_kron_zero); the rest of the development assumes the other order there")
c("C35","proved",["C35_"+x for x in "add multiply matmul dense diag sum subtract divide trace matmul_diag abs sqrt power sum_axis mean concat tile reshape block kron block_diag take submatrix inv pd_inv cholesky solve cholesky_solve root iqf iqf_diag ratio sample logdet logdet_zero_refuted logdet_constant_refuted".split()],"assumes the numeric backend calls themselves finish (LinEnv.Total); logdet on the domain LdFin, the case outside is refuted")
c("C42","proved",["Indent.C42_indent","Indent.C42_lines","Indent.C42_dedent","C42_str","C42_str_faithful","C42_repr","C42_repr_lowrank"],"the formatting of arrays is a parameter; data type names contain no comma, '>' or newline")
c("C09","proved",["C09_add","C09_multiply","C09_matmul","C09_add_zero","C09_zero_add"],"tables addOut, mulOut, mmOut in Kinds.lean")
c("C40","proved",["C40_add","C40_multiply","C40_matmul","C40_triangular_constant_unchecked","C40_matmul_lowrank_unchecked","C40_matmul_constant_unchecked","C40_matmul_kron_unchecked"],"for operands with compatible batches; three witnesses show that incompatible batches can go unnoticed (B.dense of the product raises)")
c("C36","proved",["C36_expression"],"")
c("C37","proved",["C37_"+x for x in "add_comm add_assoc mul_comm mul_assoc add_mul matmul_assoc matmul_add add_matmul transpose_matmul matmul_flags transpose_add sub sub_self neg_neg scale_matmul".split()],"")
c("C19","proved",["C19_inv","C19_schur"],"over any lawful backend inverse; exact arithmetic")
c("C20","proved",["C20_pd_inv","C20_pd_inv_woodbury","C20_lowrank_refuted"],"domain Mat.PdDom; the case outside is refuted")
c("C21","proved",["C21_cholesky","C21_lowrank_refuted"],"domain Mat.CholDom; LAB's Cholesky regularisation is not modelled")
c("C22","proved",["C22_logdet","C22_logdet_pos","C22_logdet_lowrank","C22_logdet_lowrank_refuted"],"domain Mat.LdDom, and LowRank matrices with numeric factors; wrong for LowRank matrices with a Diagonal middle factor")
c("C23","proved",["C23_iqf","C23_iqf_diag","C23_ratio","C23_matmul_diag","C23_zero_refuted","C23_matmul_diag_refuted"],"")
c("C24","proved",["C24_solve","C24_cholesky_solve","C24_triangular_solve","C24_triangular_flag","C24_zero_unchecked"],"")
c("C25","proved",["C25_root"],"")
c("C26","proved",["C26_sample","C26_covariance","C26_batches","C26_covariance_woodbury"],"expectation is any linear functional under which the noise is standard")
c("C30","proved",["C30_"+x for x in "returns raises dense cholesky inv pd_inv logdet schur pd_schur agree_diagonal agree_dense shared_schur_refuted".split()],"where schur and pd_schur disagree the shared slot is observable: C30_shared_schur_refuted")
c("C43","proved",["Flow."+x for x in "C43_replay C43_branches C43_add_plain C43_sum".split()],"LAB's control_flow modelled as one queue or as one queue per name")
c("C41","proved",["C41_"+x for x in "dtype dtype_uniform cast fill_diag zeros_ones zero_one eye".split()],"arrays carry a dtype (TMat); B.eye of a batched matrix has no batch dimensions")
c("C44","proved",["C44_"+x for x in "erase add multiply matmul add_exact multiply_exact matmul_exact scale triangular_silent lowrank_needless multiply_lowrank add_lowrank matmul_kron matmul_lowrank".split()],"warnings modelled as errors (warnings.simplefilter('error')); the exception and a needless warning are theorems")
c("C45","proved",["C45_"+x for x in "dense add multiply matmul diag sum multiply_kron_refuted multiply_rank0_refuted matmul_kron_refuted matmul_kron_empty_refuted diag_kron_refuted dense_always add_always multiply_always matmul_always diag_always sum_always add_empty_batch_refuted diag_tiled_refuted tiled_refuted lowrank_kron_refuted dense_tiled add_tiled multiply_tiled matmul_tiled".split()],"for runs whose low-rank merges are exact (Exact); each condition on the operands is shown to be needed by a refutation without it")
c("C46","proved",["C46_"+x for x in "dense diag sum multiply add matmul add_refuted matmul_refuted inv pd_inv cholesky solve solve_woodbury cholesky_solve logdet root iqf iqf_diag ratio sample sample_woodbury matmul_diag block block_diag".split()],"same outcome under every tolerance; the exceptions are shown to be real")
c("C47","proved",["C47_expression","C47_expression_no_tolerance"],"for runs whose low-rank merges are exact, unconditional when the tolerance is off; Kronecker leaves excluded because of C45_multiply_kron_refuted, C45_matmul_kron_refuted, rank zero because of C45_multiply_rank0_refuted")
c("C48","proved",["C48_"+x for x in "operator pow pow_modulo getitem getitem_returns getitem_any getitem_outcome to_numpy squeeze squeeze_returns reshape flatten reshape_rejected reshape_returns reshape_impossible structured structured_other uprank isabstract".split()],"integers in a[...] are modelled exactly; for slices, masks and index arrays the backend's indexing of arrays is a parameter (C48_getitem_any); a numpy array on the left of an operator does not defer to the matrix and is outside the model")
c("C49","proved",["C49_lowrank_sum"],"unbatched operands made of arrays; with a batch no bound holds (C33_batched_refuted)")
c("C50","proved",["C50_"+x+y for x in "inv pd_inv cholesky solve cholesky_solve logdet root".split() for y in ["","_always"]]+["C50_"+x+"_always" for x in "iqf iqf_diag ratio sample sample_woodbury triangular_solve".split()]+["realLin_good"],"domains InvDom, PosDom, CholFine, SolveFine, CsFine, DetFine, RootFine; LinEnv.Good is met by realLin (realLin_good)")
c("C51","proved",["C51_inv","C51_pd_inv","C51_cholesky","C51_solve","C51_root","C51_negative","C51_subtract","C51_divide","C51_abs","C51_sqrt","C51_power","C51_kron","C51_take","C51_submatrix","C51_expression"],
  "Unconditional in the backend. cholesky and pd_inv of LowRank matrices are excluded (their class is that of a product of the parts). In expressions plain arrays count as Dense.")
c("C52","proved",["C52_"+x for x in "lowrank_exact lowrank_cancel lowrank_self woodbury_cancel readme readme_scaled".split()],"in exact arithmetic; p nonzero in readme_scaled (a zero literal is the Zero matrix)")
c("C53","proved",["C53_"+x for x in "subtract subtract_always divide trace abs sqrt power power_neg sum_all sum_axis mean_all mean_axis reshape tile concat take submatrix block block_diag matmul_diag kron broadcast_to divide_tiled tiled".split()]+["C46_"+x for x in "subtract divide trace abs sqrt power sum_axis mean reshape tile concat take submatrix block block_diag matmul_diag".split()],"C53_subtract is for runs whose low-rank merges are exact, the others hold for every tolerance; B.power with integer exponents")
c("C54","proved",["C54_"+x for x in "erase elementwise submatrix tile divide divide_by concat block block_diag array reshape squeeze getitem sum take diag diag_own dense dense_tiled unstructured take_triangular_silent sum_triangular_silent elementwise_kept submatrix_kept tile_kept concat_kept take_kept sum_kept divide_kept block_kept block_diag_kept block_needless kron_needless".split()],"B.take of triangular matrices is excluded because of C54_take_triangular_silent; needless warnings are exhibited")
c("C55","proved",["C55_"+x for x in "expression representation dense inv_inv inv_transpose inv_matmul inv_matmul_self solve_inv".split()],"solutions of B.solve are characterised, not unique, so representation independence excludes B.solve (C55_solve_inv covers the invertible case); a zero right-hand side of B.solve is returned without the batch of the matrix")
c("C56","proved",["C56_"+x for x in "erase cholesky_woodbury root solve solve_triangular inv_quiet pdinv_quiet cholesky_quiet logdet_quiet root_quiet solve_quiet iqf_quiet".split()],"the warnings of ops/cholesky.py, ops/root.py and ops/solve.py over the core with its warnings (C44); results are not cached here, the cache is C30")
c("C57","proved",["C57_"+x for x in "limit inv pdinv logdet solve cholesky root iqf iqf_diag ratio sample cholesky_woodbury_finding".split()],"Woodbury factors are arrays or Dense matrices, the middle may also be Diagonal; products of matrices, which need no factorisation, are not restricted")
c("C58","proved",["C58_"+x for x in "add subtract multiply negative transpose matmul lowrank_matmul lowrank_chain expression add_shared add_among among_refuted inv rank rank_factors".split()],"outer factors are arrays or Dense matrices, the middle array, Dense, Diagonal or Zero (Mat.factorsLe)")
c("C59","proved",["C59_"+x for x in "covered covered_nozero closed uniform at_most promoted covered_array covered_array_nozero closed_array promoted_array add_zero multiply_zero matmul_zero cancel linalg_covered linalg_covered_plain linalg_closed inv_closed linalg_uniform inv_uniform linalg_promoted logdet_covered logdet_covered_plain logdet_closed logdet_promoted cholesky_constant cholesky_lowrank cholesky_double solve_zero expression_covered expression_covered_plain expression_closed expression_uniform expression_promoted derived_covered derived_covered_plain derived_closed derived_uniform derived_promoted sample_covered sample_covered_nozero sample_closed sample_promoted block_covered block_covered_nozero block_closed block_promoted block_diag_covered block_diag_covered_nozero block_diag_closed block_diag_promoted block_zero select_covered select_covered_nozero select_closed select_promoted concat_covered concat_covered_nozero concat_closed concat_promoted".split()],"C59_covered: every run of the value model is followed by the rules for data types (Runs), so typed results exist for every run; assumptions about the data types given by the array library are in DESIGN section 1")
c("C60","proved",["C60_refines","C60_representation","C60_observe","C60_deterministic","C60_progress","C60_observe_total","C60_representation_solve","C60_observe_representation"],"A refinement: `Hist` (histories of the model) against `DHist` (the specifications of the calls on dense arrays). `Call.Dom` lists the domains; the excluded cases are the findings of the single operations. `Call.Fine` lists what it takes, besides `Dom`, for a call to return (C60_progress, from C45, C50, C53).")
json.dump({"claims":C},open("/verif/MANIFEST.json","w"),indent=1)
print(len(C))
