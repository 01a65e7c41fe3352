STATUS["C30"]=("proved",["Fftwpp.C30_conj","Fftwpp.C30_zmulti","Fftwpp.C30_zmult","Fftwpp.C30_zcmult","Fftwpp.C30_zmulti2","Fftwpp.C30_zcmulti","Fftwpp.C30_zmult2","Fftwpp.C30_zmult_xy","Fftwpp.C30_zmult_xy_conj","Fftwpp.C30_zmult2_xy","Fftwpp.C30_zmulti_xy","Fftwpp.C30_pair_add","Fftwpp.C30_pair_sub","Fftwpp.C30_pair2_add","Fftwpp.C30_pair2_sub"],"over exact reals")
STATUS["C05"]=("proved",["Fftwpp.C05_parameters","Fftwpp.C05_constructor_exit","Fftwpp.C05_D_zero_is_ub"],"")
STATUS["C06"]=("proved",["Fftwpp.Fft.C06_residue_loop"],"")
STATUS["C07"]=("proved",["Fftwpp.Fft.C07_index_bijective"],"")
STATUS["C08"]=("proved",["Fftwpp.Fft.C08_forward"],"every noncentered non-overwriting routine, all C, S, L, M, m, D")
STATUS["C09"]=("proved",["Fftwpp.Fft.C09_roundtrip","Fftwpp.Fft.C09_backward_block"],"")
STATUS["C01"]=("proved",["Fftwpp.Utils.C01_ceilpow2","Fftwpp.Utils.C01_ceilpow2_wraps"],"size_t arithmetic mod 2^64; returns 0 for n=0 and n>2^63")
STATUS["C02"]=("proved",["Fftwpp.Utils.C02_pow","Fftwpp.Utils.C02_ceilpow","Fftwpp.Utils.C02_ceilpow_diverges"],"ceilpow for n <= 2^32; for larger n the C++ loop can run forever (proved for p=2, n=2^32+1)")
STATUS["C03"]=("proved",["Fftwpp.Utils.C03_nextfftsize"],"m <= 2^61 (beyond, the products in the heap may overflow)")
STATUS["C04"]=("proved",["Fftwpp.Utils.C04_ispow2","Fftwpp.Utils.C04_ispure","Fftwpp.Utils.C04_nextpuresize"],"ispure, nextpuresize for m <= 2^32 (see C02)")
STATUS["C20"]=("proved",["Fftwpp.Stats.C20_statistics"],"exact real arithmetic")
STATUS["C22"]=("proved",["Fftwpp.C22_blocks_partition","Fftwpp.C22_execute","Fftwpp.C22_inplace_transposed_refuted"],"with the hypothesis that no transform reads what another writes; refuted for in-place batches with different input and output layouts, which fftwblock::init does split")
STATUS["C28"]=("proved",["Fftwpp.C28_shift2","Fftwpp.C28_shift2real","Fftwpp.C28_shift3","Fftwpp.C28_shift3real","Fftwpp.C28_involution","Fftwpp.C28_rotates"],"")
STATUS["C29"]=("proved",["Fftwpp.C29_inverse","Fftwpp.C29_normalize_overrun_refuted"],"fft1d and mfft1d; Normalize overruns the output when the input layout is longer (refuted)")
STATUS["C31"]=("proved",["Fftwpp.C31_complexAlign","Fftwpp.C31_complexAlign_null","Fftwpp.C31_align"],"")
STATUS["C34"]=("proved",["Fftwpp.C34_irrefl","Fftwpp.C34_trans","Fftwpp.C34_total","Fftwpp.C34_lookup"],"")
STATUS["C40"]=("proved",["Fftwpp.C40_multithread"],"")
STATUS["C10"]=("proved",["Fftwpp.C10_convolve"],"noncentered complex 1D, D0=1 or frequency-independent multiplier; overwriting and non-overwriting")
STATUS["C11"]=("proved",["Fftwpp.C11_choice"],"")
STATUS["C12"]=("proved",["Fftwpp.C12_history"],"")
STATUS["C13"]=("proved",["Fftwpp.C12_history","Fftwpp.Fft.C08_forward","Fftwpp.Fft.C09_backward_block"],"in the memory model an out-of-bounds access is UB, and the theorems state that the run ends normally")
STATUS["C15"]=("proved",["Fftwpp.C12_history"],"frame clauses of the theorem")
STATUS["C16"]=("proved",["Fftwpp.C16_loop2","Fftwpp.C16_loop2_refuted"],"correct when (A-B) divides B; refuted otherwise (A=3,B=1)")
STATUS["C32"]=("proved",["Fftwpp.C32_correlation"],"")
STATUS["C33"]=("proved",["Fftwpp.C33_inplace","Fftwpp.C33_user_W_refuted"],"the constructor discards a user-supplied W: harmless for in-place transforms, and an out-of-place explicit convolution exits")
STATUS["C14"]=("proved",["Fftwpp.C14_interleaving","Fftwpp.C14_race_is_ub","Fftwpp.Fft.C08_forward","Fftwpp.Fft.C09_backward_block","Fftwpp.C12_history"],"race-free loops have the same result under every interleaving; a racy loop is UB in the model, so the theorems that the runs end normally include race freedom")
STATUS["C18"]=("proved",["Fftwpp.Fft.C18_gaps"],"")
STATUS["C23"]=("proved",["Fftwpp.Mpi.C23_localdimension"],"")
STATUS["C25"]=("proved",["Fftwpp.Mpi.C25_schedule"],"")
STATUS["C39"]=("proved",["Fftwpp.Mpi.C39_group1","Fftwpp.Mpi.C39_group2"],"")
STATUS["C21"]=("proved",["Fftwpp.C21_symmetrizeX","Fftwpp.C21_symmetrizeXY","Fftwpp.C21_symmetrize","Fftwpp.C21_default_strides"],"")
STATUS["C19"]=("proved",["Fftwpp.Opt.C19_scan","Fftwpp.Opt.C19_fastest","Fftwpp.Opt.C19_forced","Fftwpp.Opt.C19_constructor","Fftwpp.Opt.C19_constructor_centered","Fftwpp.Opt.C19_constructor_hermitian"],"1 <= L <= M <= 2^27 (the size functions may overflow beyond 2^32); the timing routine is an environment that returns")
STATUS["C27"]=("proved",["Fftwpp.Arr."+t for t in ["C27_array1","C27_array2","C27_array3","C27_array4","C27_array5","C27_Array1","C27_Array2","C27_Array3","C27_Array4","C27_Array5","C27_unsized_refuted","C27_identity","C27_identity_refuted","C27_addDiag2","C27_addDiag3","C27_addDiag4","C27_addDiag5","C27_assign3","C27_assign4_refuted"]],"all ten classes; array1(T*) without a size rejects every index in the checking mode (refuted)")
STATUS["C36"]=("proved",["Fftwpp.Cent."+t for t in ["C36_forward","C36_backward_block","C36_roundtrip","C36_ow_forward","C36_ow_roundtrip"]],"all routines of the centered class (explicit, p=2, p>2, one copy and many, overwriting or not)")
STATUS["C42"]=("proved",["Fftwpp."+t for t in ["C42_history","C42_convolve","C42_history2","C42_convolve2","C42_history3","C42_convolve3"]],"Convolution, Convolution2, Convolution3 with a transform of either complex class in each direction")
STATUS["C41"]=("proved",["Fftwpp.ArrOwn."+t for t in ["C41_no_double_free","C41_plain","C41_aligned","C41_no_leak","C41_set_mismatch_refuted","C41_realloc_mismatch_refuted","C41_count_refuted","C41_swap_leak_refuted","C41_hold_leak_refuted"]],"with refutations where the bookkeeping is wrong")
STATUS["C17"]=("proved",["Fftwpp.C17_history2","Fftwpp.C17_convolve2","Fftwpp.C17_history3","Fftwpp.C17_convolve3"],"noncentered complex transforms, overwriting or not; any threads and schedules, any history. Conditions in the theorems: B<=A (the code's VLA G[A] is too short otherwise), one block per pass in the outer directions (automatic if the stride is >1), A=B+1 if the two-pass schedule is used in an outer direction (the code's rotation of Fp is wrong otherwise)")
STATUS["C24"]=("proved",["Fftwpp.Net.C24_gatherx","Fftwpp.Net.C24_gathery","Fftwpp.Net.C24_gatheryz","Fftwpp.Net.C24_gatherxy"],"message-passing semantics with every interleaving and every buffering choice of the MPI library (Model/Net.lean); every run is finite, ends with all processes finished and no message left over, and rank 0 holds the array; blocks as computed by split/split3 on any communicator")
STATUS["C26"]=("proved",["Fftwpp.Net."+t for t in ["C26_localize0","C26_localize1","C26_roundtrip","C26_compact_refuted"]],"every N,M,L>=0 with N,M>0, every process count, every a>=1 and alltoall option, all interleavings and buffering choices; the compact algorithm only in place (refuted otherwise); user code between ilocalize and wait is not modelled")
STATUS["C35"]=("proved",["Fftwpp.Fft.C35_forward","Fftwpp.Fft.C35_backward","Fftwpp.Fft.C35_roundtrip","Fftwpp.C35_agree","Fftwpp.Fft.C35_index_refuted","Fftwpp.C17_history2","Fftwpp.C17_history3"],"Noncentered overwriting transforms (forward1All/2All, ManyAll, backward counterparts) for all C,S; Convolution::convolveRaw overwriting branch (C35_agree: same first B results as without overwriting, any history), and in 2D/3D (C17_history2/3 cover overwriting in every direction). The multiplier index is wrong for p=2 (C35_index_refuted), so frequency-dependent multipliers need n=2. Centered overwriting belongs to C36.")
STATUS["C37"]=("proved",["Fftwpp.Herm."+t for t in ["C37_forward","C37_backward_block","C37_roundtrip","C37_real"]],"all routines of the Hermitian class (explicit, p=2, p>2, one copy and many, in place or not); D>0 is assumed when q=1 (the constructor does not check it)")
STATUS["C43"]=("proved",["Fftwpp.C43_history","Fftwpp.C43_convolve"],"one copy (the driver's contract); conditions in the theorem: (A-B) divides B if the two-pass schedule is used, and B<=A unless q=1 (as for C12); element 0 of each input real")
STATUS["C44"]=("proved",["Fftwpp.C44_history2","Fftwpp.C44_convolve2","Fftwpp.C44_symmetrized"],"conditions as for C17 and C43: B<=A, one residue per pass in x, A=B+1 if the two-pass schedule is used in x, (A-B) divides B if it is used in y")
STATUS["C45"]=("proved",["Fftwpp.C45_history3","Fftwpp.C45_convolve3","Fftwpp.C45_symmetrized"],"conditions as for C17 and C43")
STATUS["C38"]=("proved",["Fftwpp.Re."+t for t in ["C38_frequencies","C38_count","C38_forward","C38_backward_block","C38_roundtrip"]],"all routines: explicit padding, p=1, p=2, inner (p>2); one copy and many, in place or not, with or without the private work array")
STATUS["C46"]=("proved",["Fftwpp.C46_history","Fftwpp.C46_convolve","Fftwpp.C46_correlation"],"one copy (C=1, S<=1: the driver's contract); the multiplier commutes with conjugation and does not depend on the frequency; (A-B) divides B if the two-pass schedule is used, B<=A unless q=1 (as for C12)")
STATUS["C47"]=("proved",["Fftwpp.C47_history2","Fftwpp.C47_convolve2"],"one block per pass in x (always the case if Sx>1); the multiplier commutes with conjugation and does not depend on the frequency; B<=A; A=B+1 if the two-pass schedule is used in x, (A-B) divides B if it is used in y; x transform without private copy of the data (fftPadReal allocates one only if in place, p>2 and Sx>Ly)")
STATUS["C48"]=("proved",["Fftwpp.C48_history3","Fftwpp.C48_convolve3"],"conditions as for C47 in x (fftx->C=Ly*Sy as checked by checkStrides), as for C17 in y and z")
STATUS["C49"]=("proved",["Fftwpp.Net."+t for t in ["C49_forward","C49_backward","C49_roundtrip","C49_default_out_refuted","C49_backward_input_refuted"]],"Forward and Backward with an explicit output argument; the two _refuted theorems are findings (DESIGN section 4)")
STATUS["C50"]=("proved",["Fftwpp.Net."+t for t in ["C50_forward","C50_forward0","C50_backward","C50_backward0","C50_roundtrip","C50_roundtrip0","C50_deNyquist","C50_deNyquist_refuted","C50_default_out_refuted"]],"explicit output argument for Forward/Forward0/Backward0; the two _refuted theorems are findings (DESIGN section 4)")
STATUS["C51"]=("proved",["Fftwpp.Net."+t for t in ["C51_forward","C51_backward","C51_roundtrip","C51_default_out_refuted"]],"explicit output argument; the _refuted theorem is a finding (DESIGN section 4)")
STATUS["C52"]=("proved",["Fftwpp.Net."+t for t in ["C52_forward","C52_forward0","C52_backward","C52_backward0","C52_roundtrip","C52_roundtrip0","C52_deNyquist","C52_deNyquist_refuted","C52_default_out_refuted","C52_backward0_default_out_refuted"]],"explicit output argument (or the default for Backward in place); deNyquist unless a process without planes starts at the end; the _refuted theorems are findings (DESIGN section 4)")
STATUS["C53"]=("proved",["Fftwpp."+t for t in ["C53_history","C53_convolve","C53_data_exist","C53_kappa_exists","C53_frequency_refuted","C53_fault_detected"]],"as constructed by the test programs: D=1, no overwriting, contiguous columns in x (DESIGN section 4, findings 31-36); a multiplier that depends on the x frequency is told a wrong one if P>1: the theorem gives the value in terms of what it is told (kappa), C53_frequency_refuted shows that it differs from the inverse transform")
STATUS["C54"]=("proved",["Fftwpp."+t for t in ["C54_history","C54_convolve","C54_symmetrized"]],"as C53")
STATUS["C55"]=("proved",["Fftwpp."+t for t in ["C55_history","C55_convolve","C55_data_exist"]],"slab decomposition (d.z=d.Z); as C53: D=1, no overwriting, contiguous in x and y; the multiplier is told the x frequency kappa as in C53; pencils are not modelled")
STATUS["C56"]=("proved",["Fftwpp."+t for t in ["C56_history","C56_convolve"]],"slab decomposition (d.z=d.Z); as C55 with Hermitian z transform")
STATUS["C57"]=("proved",["Fftwpp."+t for t in ["C57_symmetrized","C57_table"]],"slab decomposition (d.z0=0); the arrays gathered by MPI_Allgather are given")
STATUS["C58"]=("proved",["Fftwpp.C58_convolve", "Fftwpp.C58_convolveC", "Fftwpp.C58_autoconvolve", "Fftwpp.C58_convolveh", "Fftwpp.C58_convolve2", "Fftwpp.C58_convolve3", "Fftwpp.C58_convolveh2", "Fftwpp.C58_convolveh2_symmetrized", "Fftwpp.C58_convolveh3", "Fftwpp.C58_convolveh3_symmetrized", "Fftwpp.C58_hybrid", "Fftwpp.C58_hybridC", "Fftwpp.C58_hybridh", "Fftwpp.C58_hybrid2", "Fftwpp.C58_hybrid3", "Fftwpp.C58_hybridh2", "Fftwpp.C58_hybridh3"],"exact complex numbers; with symmetrize=true the default strides (finding 38)")
STATUS["C59"]=("proved",["Fftwpp.C59_conv1d", "Fftwpp.C59_hconv1d", "Fftwpp.C59_conv2d", "Fftwpp.C59_hconv2d", "Fftwpp.C59_conv3d", "Fftwpp.C59_hconv3d", "Fftwpp.C59_py1", "Fftwpp.C59_py2", "Fftwpp.C59_py3"],"exact complex numbers; conv2d/hconv2d/conv3d/hconv3d/py2/py3: last axis of at least two stored words (finding 39)")
STATUS["C60"]=("proved",["Fftwpp.RFft.C60_forward", "Fftwpp.RFft.C60_backward", "Fftwpp.RFft.C60_forwardNormalized", "Fftwpp.RFft.C60_roundtrip", "Fftwpp.RFft.C60_deNyquist", "Fftwpp.RFft.C60_exit", "Fftwpp.RFft.C60_rcfft2d", "Fftwpp.RFft.C60_complexOverload_refuted"],"exact numbers; FFTW's documented contract for plans of real data is the definition of the plan; the overload for Complex output is refuted (finding 40)")
STATUS["C61"]=("proved",["Fftwpp.RBatch.C61_forward", "Fftwpp.RBatch.C61_forwardNormalized", "Fftwpp.RBatch.C61_backward", "Fftwpp.RBatch.C61_roundtrip", "Fftwpp.RBatch.C61_exit", "Fftwpp.RBatch.C61_scratch", "Fftwpp.RBatch.C61_scratch_default_refuted", "Fftwpp.RBatch.C61_inplace_split_refuted"],"exact numbers; FFTW's contract for batched plans of real data is the definition of the plan; the split of in-place batches with unequal distances and the planning array for default distances are refuted (findings 41, 42)")
STATUS["C62"]=("proved",["Fftwpp.CFft.C62_fft1d", "Fftwpp.CFft.C62_fft2d", "Fftwpp.CFft.C62_fft3d", "Fftwpp.CFft.C62_inverse", "Fftwpp.CFft.C62_exit"],"exact numbers; FFTW's contract for complex plans is the definition of the plan")
STATUS["C63"]=("proved",["Fftwpp.Cplx.C63_assign", "Fftwpp.Cplx.C63_operators", "Fftwpp.Cplx.C63_eq", "Fftwpp.Cplx.C63_div", "Fftwpp.Cplx.C63_abs", "Fftwpp.Cplx.C63_exp", "Fftwpp.Cplx.C63_arg", "Fftwpp.Cplx.C63_arg_refuted", "Fftwpp.Cplx.C63_pow", "Fftwpp.Cplx.C63_pow_refuted", "Fftwpp.Cplx.C63_sqrt"],"exact numbers; arg and pow of negative real numbers are refuted (finding 43)")
STATUS["C64"]=("proved",["Fftwpp.Sse.C64_basic", "Fftwpp.Sse.C64_products", "Fftwpp.Sse.C64_reg"],"the intrinsics are their documentation; both builds use the same operations on doubles (no contraction to fused operations), and negation flips the sign bit")
STATUS["C65"]=("proved",["Fftwpp.Align.C65_memalign", "Fftwpp.Align.C65_errors", "Fftwpp.Align.C65_zero_refuted", "Fftwpp.Align.C65_overflow_refuted"],"size_t arithmetic mod 2^64; the block malloc returns lies below 2^64; alignment 0 and the overflow of size+alignment are refuted (finding 44)")
STATUS["C66"]=("proved",["Fftwpp.C66_complex2", "Fftwpp.C66_complex3", "Fftwpp.C66_real2", "Fftwpp.C66_real3"],"the hypotheses are those of C17, C47, C48 (shapes, buffers), without condition on the multiplier; exact complex arithmetic; only the nonnegative lags are in the array when the padding suffices")
STATUS["C67"]=("proved",["Fftwpp.Align.C67_lifecycle", "Fftwpp.Align.C67_failure_refuted", "Fftwpp.Align.C67_overflow_refuted"],"build without posix_memalign; constructors that throw are not modelled; failure and overflow are refuted (finding 45)")
