{
 "claims": [
  {
   "property": "C01",
   "status": "proved",
   "theorems": [
    "Verif.C01_add",
    "Verif.C01_add_dense",
    "Verif.C01_stretch_refuted",
    "Verif.C01_vector_refuted"
   ],
   "note": "proved for well-formed operands with compatible batches, no stretched rigid operand and exact low-rank merges"
  },
  {
   "property": "C02",
   "status": "proved",
   "theorems": [
    "Verif.C02_multiply",
    "Verif.C02_multiply_dense",
    "Verif.C02_kron_refuted",
    "Verif.C02_stretch_refuted"
   ],
   "note": "proved for well-formed operands in the stated domain"
  },
  {
   "property": "C03",
   "status": "proved",
   "theorems": [
    "Verif.C03_matmul",
    "Verif.C03_matmul_dense"
   ],
   "note": ""
  },
  {
   "property": "C04",
   "status": "proved",
   "theorems": [
    "Verif.C04_dense"
   ],
   "note": ""
  },
  {
   "property": "C05",
   "status": "proved",
   "theorems": [
    "Verif.C05_shape",
    "Verif.C05_shape_split",
    "Verif.C05_shape_dense"
   ],
   "note": ""
  },
  {
   "property": "C06",
   "status": "proved",
   "theorems": [
    "Verif.C06_transpose",
    "Verif.C06_transpose_kind",
    "Verif.C06_transpose_twice"
   ],
   "note": ""
  },
  {
   "property": "C08",
   "status": "proved",
   "theorems": [
    "Verif.C08_add_scalar",
    "Verif.C08_mul_scalar",
    "Verif.C08_scalar_mul",
    "Verif.C08_promote"
   ],
   "note": ""
  },
  {
   "property": "C11",
   "status": "proved",
   "theorems": [
    "Verif.C11_diag",
    "Verif.C11_trace",
    "Verif.C11_kron_refuted"
   ],
   "note": "for Kronecker products with square right factors"
  },
  {
   "property": "C07",
   "status": "proved",
   "theorems": [
    "Verif.C07_negative",
    "Verif.C07_subtract",
    "Verif.C07_divide",
    "Verif.C07_divide_scalar"
   ],
   "note": ""
  },
  {
   "property": "C38",
   "status": "proved",
   "theorems": [
    "Verif.C38_matmul3"
   ],
   "note": ""
  },
  {
   "property": "C10",
   "status": "proved",
   "theorems": [
    "Verif.C10_add",
    "Verif.C10_multiply",
    "Verif.C10_matmul",
    "Verif.C10_transpose"
   ],
   "note": ""
  },
  {
   "property": "C12",
   "status": "proved",
   "theorems": [
    "Verif.C12_sum_all",
    "Verif.C12_sum_axis",
    "Verif.C12_axis_rejected",
    "Verif.C12_mean_all",
    "Verif.C12_mean_axis",
    "Verif.C12_stretch_refuted"
   ],
   "note": ""
  },
  {
   "property": "C33",
   "status": "proved",
   "theorems": [
    "Verif.C33_lowrank_sum",
    "Verif.C33_batched_refuted",
    "Verif.C33_tolerance_refuted"
   ],
   "note": ""
  },
  {
   "property": "C34",
   "status": "proved",
   "theorems": [
    "Verif.C34_abs",
    "Verif.C34_sqrt",
    "Verif.C34_power",
    "Verif.C34_power_zero_refuted",
    "Verif.C34_sqrt_kron_refuted"
   ],
   "note": "integer exponents; sqrt over any lawful backend square root"
  },
  {
   "property": "C18",
   "status": "proved",
   "theorems": [
    "Verif.C18_kron",
    "Verif.C18_kron_succeeds",
    "Verif.C18_matmul_kron",
    "Verif.C18_batch_unchecked"
   ],
   "note": ""
  },
  {
   "property": "C13",
   "status": "proved",
   "theorems": [
    "Verif.C13_take",
    "Verif.C13_axis_rejected",
    "Verif.C13_lowrank_batched_refuted",
    "Verif.C13_zero_out_of_range"
   ],
   "note": "index lists and masks of rank 1; any recursion depth m"
  },
  {
   "property": "C14",
   "status": "proved",
   "theorems": [
    "Verif.C14_submatrix",
    "Verif.C14_diagonal_repeated_refuted",
    "Verif.C14_triangular_permuted_refuted"
   ],
   "note": "index lists and masks of rank 1; any recursion depth m"
  },
  {
   "property": "C15",
   "status": "proved",
   "theorems": [
    "Verif.C15_block",
    "Verif.C15_block_zero",
    "Verif.C15_block_diagonal"
   ],
   "note": ""
  },
  {
   "property": "C16",
   "status": "proved",
   "theorems": [
    "Verif.C16_block_diag",
    "Verif.C16_block_diag_tiled",
    "Verif.C16_block_diag_zero",
    "Verif.C16_block_diag_diagonal",
    "Verif.C16_single_numeric_rejected",
    "Verif.C16_single_numeric_refuted"
   ],
   "note": "B.squeeze of a one-element list makes align_batch return the single operand itself, so that B.block_diag iterates over its first axis."
  },
  {
   "property": "C17",
   "status": "proved",
   "theorems": [
    "Verif.C17_concat",
    "Verif.C17_concat_tiled",
    "Verif.C17_tile",
    "Verif.C17_tile_rejected",
    "Verif.C17_reshape",
    "Verif.C17_reshape_rejected"
   ],
   "note": ""
  },
  {
   "property": "C28",
   "status": "proved",
   "theorems": [
    "Verif.C28_broadcast_batch_to",
    "Verif.C28_broadcast_to"
   ],
   "note": ""
  },
  {
   "property": "C32",
   "status": "proved",
   "theorems": [
    "Verif.C32_align",
    "Verif.C32_align_total"
   ],
   "note": ""
  },
  {
   "property": "C39",
   "status": "proved",
   "theorems": [
    "Verif.C39_add",
    "Verif.C39_multiply",
    "Verif.C39_matmul",
    "Verif.C39_expression",
    "Verif.C39_logdet",
    "Verif.C39_iqf",
    "Verif.C39_iqf_diag",
    "Verif.C39_ratio",
    "Verif.C39_diag",
    "Verif.C39_trace",
    "Verif.C39_kron"
   ],
   "note": "C39_expression: whole expressions with inverses, quotients and solves, over different batches; a slice of the batch is the case of the empty batch shape"
  },
  {
   "property": "C27",
   "status": "proved",
   "theorems": [
    "Verif.Py.C27_result",
    "Verif.Py.C27_succeeds",
    "Verif.Py.C27_raises",
    "Verif.Py.C27_compatible",
    "Verif.Py.C27_comm",
    "Verif.Py.C27_idem",
    "Verif.Py.C27_unit",
    "Verif.Py.C27_assoc",
    "Verif.Py.C27_many",
    "Verif.Py.C27_many_perm",
    "Verif.Py.C27_many_raises",
    "Verif.Py.C27_broadcast",
    "Verif.Py.C27_broadcast_many"
   ],
   "note": "shape.py in Python axis order"
  },
  {
   "property": "C29",
   "status": "proved",
   "theorems": [
    "Verif.C29_diagonal",
    "Verif.C29_triangular",
    "Verif.C29_zero",
    "Verif.C29_constant",
    "Verif.C29_lowrank",
    "Verif.C29_lowrank_wf",
    "Verif.C29_lowrank_unchecked",
    "Verif.C29_woodbury",
    "Verif.C29_dense",
    "Verif.C29_of_matrix"
   ],
   "note": "LowRank(left, middle=...) without right does not check the columns of middle: C29_lowrank_unchecked"
  },
  {
   "property": "C31",
   "status": "proved",
   "theorems": [
    "Verif.C31_add",
    "Verif.C31_multiply",
    "Verif.C31_matmul",
    "Verif.C31_unambiguous",
    "Verif.C31_zero_zero",
    "Verif.C31_solve",
    "Verif.C31_cholesky_solve",
    "Verif.C31_divide",
    "Verif.C31_kron",
    "Verif.C31_kron_zero",
    "Verif.C31_ratio"
   ],
   "note": "B.kron of two Zero matrices recurses forever if proven() gives the method registered second the higher precedence (C31_kron_zero); the rest of the development assumes the other order there"
  },
  {
   "property": "C35",
   "status": "proved",
   "theorems": [
    "Verif.C35_add",
    "Verif.C35_multiply",
    "Verif.C35_matmul",
    "Verif.C35_dense",
    "Verif.C35_diag",
    "Verif.C35_sum",
    "Verif.C35_subtract",
    "Verif.C35_divide",
    "Verif.C35_trace",
    "Verif.C35_matmul_diag",
    "Verif.C35_abs",
    "Verif.C35_sqrt",
    "Verif.C35_power",
    "Verif.C35_sum_axis",
    "Verif.C35_mean",
    "Verif.C35_concat",
    "Verif.C35_tile",
    "Verif.C35_reshape",
    "Verif.C35_block",
    "Verif.C35_kron",
    "Verif.C35_block_diag",
    "Verif.C35_take",
    "Verif.C35_submatrix",
    "Verif.C35_inv",
    "Verif.C35_pd_inv",
    "Verif.C35_cholesky",
    "Verif.C35_solve",
    "Verif.C35_cholesky_solve",
    "Verif.C35_root",
    "Verif.C35_iqf",
    "Verif.C35_iqf_diag",
    "Verif.C35_ratio",
    "Verif.C35_sample",
    "Verif.C35_logdet",
    "Verif.C35_logdet_zero_refuted",
    "Verif.C35_logdet_constant_refuted"
   ],
   "note": "assumes the numeric backend calls themselves finish (LinEnv.Total); logdet on the domain LdFin, the case outside is refuted"
  },
  {
   "property": "C42",
   "status": "proved",
   "theorems": [
    "Verif.Indent.C42_indent",
    "Verif.Indent.C42_lines",
    "Verif.Indent.C42_dedent",
    "Verif.C42_str",
    "Verif.C42_str_faithful",
    "Verif.C42_repr",
    "Verif.C42_repr_lowrank"
   ],
   "note": "the formatting of arrays is a parameter; data type names contain no comma, '>' or newline"
  },
  {
   "property": "C09",
   "status": "proved",
   "theorems": [
    "Verif.C09_add",
    "Verif.C09_multiply",
    "Verif.C09_matmul",
    "Verif.C09_add_zero",
    "Verif.C09_zero_add"
   ],
   "note": "tables addOut, mulOut, mmOut in Kinds.lean"
  },
  {
   "property": "C40",
   "status": "proved",
   "theorems": [
    "Verif.C40_add",
    "Verif.C40_multiply",
    "Verif.C40_matmul",
    "Verif.C40_triangular_constant_unchecked",
    "Verif.C40_matmul_lowrank_unchecked",
    "Verif.C40_matmul_constant_unchecked",
    "Verif.C40_matmul_kron_unchecked"
   ],
   "note": "for operands with compatible batches; three witnesses show that incompatible batches can go unnoticed (B.dense of the product raises)"
  },
  {
   "property": "C36",
   "status": "proved",
   "theorems": [
    "Verif.C36_expression"
   ],
   "note": ""
  },
  {
   "property": "C37",
   "status": "proved",
   "theorems": [
    "Verif.C37_add_comm",
    "Verif.C37_add_assoc",
    "Verif.C37_mul_comm",
    "Verif.C37_mul_assoc",
    "Verif.C37_add_mul",
    "Verif.C37_matmul_assoc",
    "Verif.C37_matmul_add",
    "Verif.C37_add_matmul",
    "Verif.C37_transpose_matmul",
    "Verif.C37_matmul_flags",
    "Verif.C37_transpose_add",
    "Verif.C37_sub",
    "Verif.C37_sub_self",
    "Verif.C37_neg_neg",
    "Verif.C37_scale_matmul"
   ],
   "note": ""
  },
  {
   "property": "C19",
   "status": "proved",
   "theorems": [
    "Verif.C19_inv",
    "Verif.C19_schur"
   ],
   "note": "over any lawful backend inverse; exact arithmetic"
  },
  {
   "property": "C20",
   "status": "proved",
   "theorems": [
    "Verif.C20_pd_inv",
    "Verif.C20_pd_inv_woodbury",
    "Verif.C20_lowrank_refuted"
   ],
   "note": "domain Mat.PdDom; the case outside is refuted"
  },
  {
   "property": "C21",
   "status": "proved",
   "theorems": [
    "Verif.C21_cholesky",
    "Verif.C21_lowrank_refuted"
   ],
   "note": "domain Mat.CholDom; LAB's Cholesky regularisation is not modelled"
  },
  {
   "property": "C22",
   "status": "proved",
   "theorems": [
    "Verif.C22_logdet",
    "Verif.C22_logdet_pos",
    "Verif.C22_logdet_lowrank",
    "Verif.C22_logdet_lowrank_refuted"
   ],
   "note": "domain Mat.LdDom, and LowRank matrices with numeric factors; wrong for LowRank matrices with a Diagonal middle factor"
  },
  {
   "property": "C23",
   "status": "proved",
   "theorems": [
    "Verif.C23_iqf",
    "Verif.C23_iqf_diag",
    "Verif.C23_ratio",
    "Verif.C23_matmul_diag",
    "Verif.C23_zero_refuted",
    "Verif.C23_matmul_diag_refuted"
   ],
   "note": ""
  },
  {
   "property": "C24",
   "status": "proved",
   "theorems": [
    "Verif.C24_solve",
    "Verif.C24_cholesky_solve",
    "Verif.C24_triangular_solve",
    "Verif.C24_triangular_flag",
    "Verif.C24_zero_unchecked"
   ],
   "note": ""
  },
  {
   "property": "C25",
   "status": "proved",
   "theorems": [
    "Verif.C25_root"
   ],
   "note": ""
  },
  {
   "property": "C26",
   "status": "proved",
   "theorems": [
    "Verif.C26_sample",
    "Verif.C26_covariance",
    "Verif.C26_batches",
    "Verif.C26_covariance_woodbury"
   ],
   "note": "expectation is any linear functional under which the noise is standard"
  },
  {
   "property": "C30",
   "status": "proved",
   "theorems": [
    "Verif.C30_returns",
    "Verif.C30_raises",
    "Verif.C30_dense",
    "Verif.C30_cholesky",
    "Verif.C30_inv",
    "Verif.C30_pd_inv",
    "Verif.C30_logdet",
    "Verif.C30_schur",
    "Verif.C30_pd_schur",
    "Verif.C30_agree_diagonal",
    "Verif.C30_agree_dense",
    "Verif.C30_shared_schur_refuted"
   ],
   "note": "where schur and pd_schur disagree the shared slot is observable: C30_shared_schur_refuted"
  },
  {
   "property": "C43",
   "status": "proved",
   "theorems": [
    "Verif.Flow.C43_replay",
    "Verif.Flow.C43_branches",
    "Verif.Flow.C43_add_plain",
    "Verif.Flow.C43_sum"
   ],
   "note": "LAB's control_flow modelled as one queue or as one queue per name"
  },
  {
   "property": "C41",
   "status": "proved",
   "theorems": [
    "Verif.C41_dtype",
    "Verif.C41_dtype_uniform",
    "Verif.C41_cast",
    "Verif.C41_fill_diag",
    "Verif.C41_zeros_ones",
    "Verif.C41_zero_one",
    "Verif.C41_eye"
   ],
   "note": "arrays carry a dtype (TMat); B.eye of a batched matrix has no batch dimensions"
  },
  {
   "property": "C44",
   "status": "proved",
   "theorems": [
    "Verif.C44_erase",
    "Verif.C44_add",
    "Verif.C44_multiply",
    "Verif.C44_matmul",
    "Verif.C44_add_exact",
    "Verif.C44_multiply_exact",
    "Verif.C44_matmul_exact",
    "Verif.C44_scale",
    "Verif.C44_triangular_silent",
    "Verif.C44_lowrank_needless",
    "Verif.C44_multiply_lowrank",
    "Verif.C44_add_lowrank",
    "Verif.C44_matmul_kron",
    "Verif.C44_matmul_lowrank"
   ],
   "note": "warnings modelled as errors (warnings.simplefilter('error')); the exception and a needless warning are theorems"
  },
  {
   "property": "C45",
   "status": "proved",
   "theorems": [
    "Verif.C45_dense",
    "Verif.C45_add",
    "Verif.C45_multiply",
    "Verif.C45_matmul",
    "Verif.C45_diag",
    "Verif.C45_sum",
    "Verif.C45_multiply_kron_refuted",
    "Verif.C45_multiply_rank0_refuted",
    "Verif.C45_matmul_kron_refuted",
    "Verif.C45_matmul_kron_empty_refuted",
    "Verif.C45_diag_kron_refuted",
    "Verif.C45_dense_always",
    "Verif.C45_add_always",
    "Verif.C45_multiply_always",
    "Verif.C45_matmul_always",
    "Verif.C45_diag_always",
    "Verif.C45_sum_always",
    "Verif.C45_add_empty_batch_refuted",
    "Verif.C45_diag_tiled_refuted",
    "Verif.C45_tiled_refuted",
    "Verif.C45_lowrank_kron_refuted",
    "Verif.C45_dense_tiled",
    "Verif.C45_add_tiled",
    "Verif.C45_multiply_tiled",
    "Verif.C45_matmul_tiled"
   ],
   "note": "for runs whose low-rank merges are exact (Exact); each condition on the operands is shown to be needed by a refutation without it"
  },
  {
   "property": "C46",
   "status": "proved",
   "theorems": [
    "Verif.C46_dense",
    "Verif.C46_diag",
    "Verif.C46_sum",
    "Verif.C46_multiply",
    "Verif.C46_add",
    "Verif.C46_matmul",
    "Verif.C46_add_refuted",
    "Verif.C46_matmul_refuted",
    "Verif.C46_inv",
    "Verif.C46_pd_inv",
    "Verif.C46_cholesky",
    "Verif.C46_solve",
    "Verif.C46_solve_woodbury",
    "Verif.C46_cholesky_solve",
    "Verif.C46_logdet",
    "Verif.C46_root",
    "Verif.C46_iqf",
    "Verif.C46_iqf_diag",
    "Verif.C46_ratio",
    "Verif.C46_sample",
    "Verif.C46_sample_woodbury",
    "Verif.C46_matmul_diag",
    "Verif.C46_block",
    "Verif.C46_block_diag"
   ],
   "note": "same outcome under every tolerance; the exceptions are shown to be real"
  },
  {
   "property": "C47",
   "status": "proved",
   "theorems": [
    "Verif.C47_expression",
    "Verif.C47_expression_no_tolerance"
   ],
   "note": "for runs whose low-rank merges are exact, unconditional when the tolerance is off; Kronecker leaves excluded because of C45_multiply_kron_refuted, C45_matmul_kron_refuted, rank zero because of C45_multiply_rank0_refuted"
  },
  {
   "property": "C48",
   "status": "proved",
   "theorems": [
    "Verif.C48_operator",
    "Verif.C48_pow",
    "Verif.C48_pow_modulo",
    "Verif.C48_getitem",
    "Verif.C48_getitem_returns",
    "Verif.C48_getitem_any",
    "Verif.C48_getitem_outcome",
    "Verif.C48_to_numpy",
    "Verif.C48_squeeze",
    "Verif.C48_squeeze_returns",
    "Verif.C48_reshape",
    "Verif.C48_flatten",
    "Verif.C48_reshape_rejected",
    "Verif.C48_reshape_returns",
    "Verif.C48_reshape_impossible",
    "Verif.C48_structured",
    "Verif.C48_structured_other",
    "Verif.C48_uprank",
    "Verif.C48_isabstract"
   ],
   "note": "integers in a[...] are modelled exactly; for slices, masks and index arrays the backend's indexing of arrays is a parameter (C48_getitem_any); a numpy array on the left of an operator does not defer to the matrix and is outside the model"
  },
  {
   "property": "C49",
   "status": "proved",
   "theorems": [
    "Verif.C49_lowrank_sum"
   ],
   "note": "unbatched operands made of arrays; with a batch no bound holds (C33_batched_refuted)"
  },
  {
   "property": "C50",
   "status": "proved",
   "theorems": [
    "Verif.C50_inv",
    "Verif.C50_inv_always",
    "Verif.C50_pd_inv",
    "Verif.C50_pd_inv_always",
    "Verif.C50_cholesky",
    "Verif.C50_cholesky_always",
    "Verif.C50_solve",
    "Verif.C50_solve_always",
    "Verif.C50_cholesky_solve",
    "Verif.C50_cholesky_solve_always",
    "Verif.C50_logdet",
    "Verif.C50_logdet_always",
    "Verif.C50_root",
    "Verif.C50_root_always",
    "Verif.C50_iqf_always",
    "Verif.C50_iqf_diag_always",
    "Verif.C50_ratio_always",
    "Verif.C50_sample_always",
    "Verif.C50_sample_woodbury_always",
    "Verif.C50_triangular_solve_always",
    "Verif.realLin_good"
   ],
   "note": "domains InvDom, PosDom, CholFine, SolveFine, CsFine, DetFine, RootFine; LinEnv.Good is met by realLin (realLin_good)"
  },
  {
   "property": "C51",
   "status": "proved",
   "theorems": [
    "Verif.C51_inv",
    "Verif.C51_pd_inv",
    "Verif.C51_cholesky",
    "Verif.C51_solve",
    "Verif.C51_root",
    "Verif.C51_negative",
    "Verif.C51_subtract",
    "Verif.C51_divide",
    "Verif.C51_abs",
    "Verif.C51_sqrt",
    "Verif.C51_power",
    "Verif.C51_kron",
    "Verif.C51_take",
    "Verif.C51_submatrix",
    "Verif.C51_expression"
   ],
   "note": "Unconditional in the backend. cholesky and pd_inv of LowRank matrices are excluded (their class is that of a product of the parts). In expressions plain arrays count as Dense."
  },
  {
   "property": "C52",
   "status": "proved",
   "theorems": [
    "Verif.C52_lowrank_exact",
    "Verif.C52_lowrank_cancel",
    "Verif.C52_lowrank_self",
    "Verif.C52_woodbury_cancel",
    "Verif.C52_readme",
    "Verif.C52_readme_scaled"
   ],
   "note": "in exact arithmetic; p nonzero in readme_scaled (a zero literal is the Zero matrix)"
  },
  {
   "property": "C53",
   "status": "proved",
   "theorems": [
    "Verif.C53_subtract",
    "Verif.C53_subtract_always",
    "Verif.C53_divide",
    "Verif.C53_trace",
    "Verif.C53_abs",
    "Verif.C53_sqrt",
    "Verif.C53_power",
    "Verif.C53_power_neg",
    "Verif.C53_sum_all",
    "Verif.C53_sum_axis",
    "Verif.C53_mean_all",
    "Verif.C53_mean_axis",
    "Verif.C53_reshape",
    "Verif.C53_tile",
    "Verif.C53_concat",
    "Verif.C53_take",
    "Verif.C53_submatrix",
    "Verif.C53_block",
    "Verif.C53_block_diag",
    "Verif.C53_matmul_diag",
    "Verif.C53_kron",
    "Verif.C53_broadcast_to",
    "Verif.C53_divide_tiled",
    "Verif.C53_tiled",
    "Verif.C46_subtract",
    "Verif.C46_divide",
    "Verif.C46_trace",
    "Verif.C46_abs",
    "Verif.C46_sqrt",
    "Verif.C46_power",
    "Verif.C46_sum_axis",
    "Verif.C46_mean",
    "Verif.C46_reshape",
    "Verif.C46_tile",
    "Verif.C46_concat",
    "Verif.C46_take",
    "Verif.C46_submatrix",
    "Verif.C46_block",
    "Verif.C46_block_diag",
    "Verif.C46_matmul_diag"
   ],
   "note": "C53_subtract is for runs whose low-rank merges are exact, the others hold for every tolerance; B.power with integer exponents"
  },
  {
   "property": "C54",
   "status": "proved",
   "theorems": [
    "Verif.C54_erase",
    "Verif.C54_elementwise",
    "Verif.C54_submatrix",
    "Verif.C54_tile",
    "Verif.C54_divide",
    "Verif.C54_divide_by",
    "Verif.C54_concat",
    "Verif.C54_block",
    "Verif.C54_block_diag",
    "Verif.C54_array",
    "Verif.C54_reshape",
    "Verif.C54_squeeze",
    "Verif.C54_getitem",
    "Verif.C54_sum",
    "Verif.C54_take",
    "Verif.C54_diag",
    "Verif.C54_diag_own",
    "Verif.C54_dense",
    "Verif.C54_dense_tiled",
    "Verif.C54_unstructured",
    "Verif.C54_take_triangular_silent",
    "Verif.C54_sum_triangular_silent",
    "Verif.C54_elementwise_kept",
    "Verif.C54_submatrix_kept",
    "Verif.C54_tile_kept",
    "Verif.C54_concat_kept",
    "Verif.C54_take_kept",
    "Verif.C54_sum_kept",
    "Verif.C54_divide_kept",
    "Verif.C54_block_kept",
    "Verif.C54_block_diag_kept",
    "Verif.C54_block_needless",
    "Verif.C54_kron_needless"
   ],
   "note": "B.take of triangular matrices is excluded because of C54_take_triangular_silent; needless warnings are exhibited"
  },
  {
   "property": "C55",
   "status": "proved",
   "theorems": [
    "Verif.C55_expression",
    "Verif.C55_representation",
    "Verif.C55_dense",
    "Verif.C55_inv_inv",
    "Verif.C55_inv_transpose",
    "Verif.C55_inv_matmul",
    "Verif.C55_inv_matmul_self",
    "Verif.C55_solve_inv"
   ],
   "note": "solutions of B.solve are characterised, not unique, so representation independence excludes B.solve (C55_solve_inv covers the invertible case); a zero right-hand side of B.solve is returned without the batch of the matrix"
  },
  {
   "property": "C56",
   "status": "proved",
   "theorems": [
    "Verif.C56_erase",
    "Verif.C56_cholesky_woodbury",
    "Verif.C56_root",
    "Verif.C56_solve",
    "Verif.C56_solve_triangular",
    "Verif.C56_inv_quiet",
    "Verif.C56_pdinv_quiet",
    "Verif.C56_cholesky_quiet",
    "Verif.C56_logdet_quiet",
    "Verif.C56_root_quiet",
    "Verif.C56_solve_quiet",
    "Verif.C56_iqf_quiet"
   ],
   "note": "the warnings of ops/cholesky.py, ops/root.py and ops/solve.py over the core with its warnings (C44); results are not cached here, the cache is C30"
  },
  {
   "property": "C57",
   "status": "proved",
   "theorems": [
    "Verif.C57_limit",
    "Verif.C57_inv",
    "Verif.C57_pdinv",
    "Verif.C57_logdet",
    "Verif.C57_solve",
    "Verif.C57_cholesky",
    "Verif.C57_root",
    "Verif.C57_iqf",
    "Verif.C57_iqf_diag",
    "Verif.C57_ratio",
    "Verif.C57_sample",
    "Verif.C57_cholesky_woodbury_finding"
   ],
   "note": "Woodbury factors are arrays or Dense matrices, the middle may also be Diagonal; products of matrices, which need no factorisation, are not restricted"
  },
  {
   "property": "C58",
   "status": "proved",
   "theorems": [
    "Verif.C58_add",
    "Verif.C58_subtract",
    "Verif.C58_multiply",
    "Verif.C58_negative",
    "Verif.C58_transpose",
    "Verif.C58_matmul",
    "Verif.C58_lowrank_matmul",
    "Verif.C58_lowrank_chain",
    "Verif.C58_expression",
    "Verif.C58_add_shared",
    "Verif.C58_add_among",
    "Verif.C58_among_refuted",
    "Verif.C58_inv",
    "Verif.C58_rank",
    "Verif.C58_rank_factors"
   ],
   "note": "outer factors are arrays or Dense matrices, the middle array, Dense, Diagonal or Zero (Mat.factorsLe)"
  },
  {
   "property": "C59",
   "status": "proved",
   "theorems": [
    "Verif.C59_covered",
    "Verif.C59_covered_nozero",
    "Verif.C59_closed",
    "Verif.C59_uniform",
    "Verif.C59_at_most",
    "Verif.C59_promoted",
    "Verif.C59_covered_array",
    "Verif.C59_covered_array_nozero",
    "Verif.C59_closed_array",
    "Verif.C59_promoted_array",
    "Verif.C59_add_zero",
    "Verif.C59_multiply_zero",
    "Verif.C59_matmul_zero",
    "Verif.C59_cancel",
    "Verif.C59_linalg_covered",
    "Verif.C59_linalg_covered_plain",
    "Verif.C59_linalg_closed",
    "Verif.C59_inv_closed",
    "Verif.C59_linalg_uniform",
    "Verif.C59_inv_uniform",
    "Verif.C59_linalg_promoted",
    "Verif.C59_logdet_covered",
    "Verif.C59_logdet_covered_plain",
    "Verif.C59_logdet_closed",
    "Verif.C59_logdet_promoted",
    "Verif.C59_cholesky_constant",
    "Verif.C59_cholesky_lowrank",
    "Verif.C59_cholesky_double",
    "Verif.C59_solve_zero",
    "Verif.C59_expression_covered",
    "Verif.C59_expression_covered_plain",
    "Verif.C59_expression_closed",
    "Verif.C59_expression_uniform",
    "Verif.C59_expression_promoted",
    "Verif.C59_derived_covered",
    "Verif.C59_derived_covered_plain",
    "Verif.C59_derived_closed",
    "Verif.C59_derived_uniform",
    "Verif.C59_derived_promoted",
    "Verif.C59_sample_covered",
    "Verif.C59_sample_covered_nozero",
    "Verif.C59_sample_closed",
    "Verif.C59_sample_promoted",
    "Verif.C59_block_covered",
    "Verif.C59_block_covered_nozero",
    "Verif.C59_block_closed",
    "Verif.C59_block_promoted",
    "Verif.C59_block_diag_covered",
    "Verif.C59_block_diag_covered_nozero",
    "Verif.C59_block_diag_closed",
    "Verif.C59_block_diag_promoted",
    "Verif.C59_block_zero",
    "Verif.C59_select_covered",
    "Verif.C59_select_covered_nozero",
    "Verif.C59_select_closed",
    "Verif.C59_select_promoted",
    "Verif.C59_concat_covered",
    "Verif.C59_concat_covered_nozero",
    "Verif.C59_concat_closed",
    "Verif.C59_concat_promoted"
   ],
   "note": "C59_covered: every run of the value model is followed by the rules for data types (Runs), so typed results exist for every run; assumptions about the data types given by the array library are in DESIGN section 1"
  },
  {
   "property": "C60",
   "status": "proved",
   "theorems": [
    "Verif.C60_refines",
    "Verif.C60_representation",
    "Verif.C60_observe",
    "Verif.C60_deterministic",
    "Verif.C60_progress",
    "Verif.C60_observe_total",
    "Verif.C60_representation_solve",
    "Verif.C60_observe_representation"
   ],
   "note": "A refinement: `Hist` (histories of the model) against `DHist` (the specifications of the calls on dense arrays). `Call.Dom` lists the domains; the excluded cases are the findings of the single operations. `Call.Fine` lists what it takes, besides `Dom`, for a call to return (C60_progress, from C45, C50, C53)."
  }
 ]
}