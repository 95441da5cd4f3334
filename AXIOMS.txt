Verif.C01 depends on axioms: [propext, Classical.choice, Quot.sound]
Verif.C01_sample depends on axioms: [propext, Classical.choice, Quot.sound]
Verif.C02 depends on axioms: [propext, Classical.choice, Quot.sound]
Verif.C02_large depends on axioms: [propext, Classical.choice, Quot.sound]
Verif.C03 depends on axioms: [propext, Classical.choice, Quot.sound]
Verif.C03_fresh depends on axioms: [propext, Classical.choice, Quot.sound]
Verif.C04 depends on axioms: [propext, Classical.choice, Quot.sound]
Verif.C05 depends on axioms: [propext, Classical.choice, Quot.sound]
Verif.C06_g1 depends on axioms: [propext, Classical.choice, Quot.sound]
Verif.C06_g2 depends on axioms: [propext, Classical.choice, Quot.sound]
Verif.C07 depends on axioms: [propext, Classical.choice, Quot.sound]
Verif.C08 depends on axioms: [propext, Classical.choice, Quot.sound]
Verif.C08_group depends on axioms: [propext, Classical.choice, Quot.sound]
Verif.C08_linear depends on axioms: [propext, Classical.choice, Quot.sound]
Verif.C09 depends on axioms: [propext, Classical.choice, Quot.sound]
Verif.C09_codeword depends on axioms: [propext, Classical.choice, Quot.sound]
Verif.C10_g1 depends on axioms: [propext, Classical.choice, Quot.sound]
Verif.C10_g2 depends on axioms: [propext, Classical.choice, Quot.sound]
Verif.C10_gt depends on axioms: [propext, Classical.choice, Quot.sound]
Verif.C10_simple depends on axioms: [propext, Classical.choice, Quot.sound]
Verif.C11 depends on axioms: [propext, Classical.choice, Quot.sound]
Verif.C12 depends on axioms: [propext, Classical.choice, Quot.sound]
Verif.C12_group depends on axioms: [propext, Classical.choice, Quot.sound]
Verif.C13 depends on axioms: [propext, Classical.choice, Quot.sound]
Verif.C14_err depends on axioms: [propext, Classical.choice, Quot.sound]
Verif.C14_eq depends on axioms: [propext, Classical.choice, Quot.sound]
Verif.C14_succ_checked depends on axioms: [propext, Classical.choice, Quot.sound]
Verif.C14_succ_wrapping depends on axioms: [propext, Classical.choice, Quot.sound]
Verif.C14_succ_wrappingIncl depends on axioms: [propext, Classical.choice, Quot.sound]
Verif.C14_ge depends on axioms: [propext, Classical.choice, Quot.sound]
Verif.C15 depends on axioms: [propext, Classical.choice, Quot.sound]
Verif.C15_boundary depends on axioms: [propext, Classical.choice, Quot.sound]
Verif.C16_forge depends on axioms: [propext, Classical.choice, Quot.sound]
Verif.C16_partial depends on axioms: [propext, Classical.choice, Quot.sound]
Verif.C16_false depends on axioms: [propext, Classical.choice, Quot.sound]
Verif.C17_maul depends on axioms: [propext, Classical.choice, Quot.sound]
Verif.C17_false depends on axioms: [propext, Classical.choice, Quot.sound]
Verif.C17_partial depends on axioms: [propext, Classical.choice, Quot.sound]
Verif.C18_signed depends on axioms: [propext, Classical.choice, Quot.sound]
Verif.C18_never_signedProofError depends on axioms: [propext, Classical.choice, Quot.sound]
Verif.C18_share depends on axioms: [propext, Classical.choice, Quot.sound]
Verif.C18_agg depends on axioms: [propext, Classical.choice, Quot.sound]
Verif.C18_panics depends on axioms: [propext, Classical.choice, Quot.sound]
Verif.C19 depends on axioms: [propext, Classical.choice, Quot.sound]
Verif.C19_run depends on axioms: [propext, Classical.choice, Quot.sound]
Verif.C20 depends on axioms: [propext, Classical.choice, Quot.sound]
Verif.C21_forge depends on axioms: [propext, Classical.choice, Quot.sound]
Verif.C21_zero depends on axioms: [propext, Classical.choice, Quot.sound]
Verif.C21_false depends on axioms: [propext, Classical.choice, Quot.sound]
Verif.C21_partial depends on axioms: [propext, Classical.choice, Quot.sound]
Verif.C22 depends on axioms: [propext, Classical.choice, Quot.sound]
Verif.C23 depends on axioms: [propext, Classical.choice, Quot.sound]
Verif.C24 depends on axioms: [propext, Classical.choice, Quot.sound]
Verif.C25 depends on axioms: [propext, Classical.choice, Quot.sound]
Verif.C26 depends on axioms: [propext, Classical.choice, Quot.sound]
Verif.C26_perm depends on axioms: [propext, Classical.choice, Quot.sound]
Verif.C27 depends on axioms: [propext, Classical.choice, Quot.sound]
Verif.C27_perm depends on axioms: [propext, Classical.choice, Quot.sound]
Verif.C28 depends on axioms: [propext, Classical.choice, Quot.sound]
Verif.C28_fresh depends on axioms: [propext, Classical.choice, Quot.sound]
Verif.C29_share depends on axioms: [propext, Classical.choice, Quot.sound]
Verif.C29_agg depends on axioms: [propext, Classical.choice, Quot.sound]
Verif.C30 depends on axioms: [propext, Quot.sound]
Verif.C30_conv depends on axioms: [propext, Classical.choice, Quot.sound]
Verif.C31 depends on axioms: [propext, Classical.choice, Quot.sound]
Verif.C32 depends on axioms: [propext, Classical.choice, Quot.sound]
Verif.C32_run depends on axioms: [propext, Classical.choice, Quot.sound]
Verif.C32_node depends on axioms: [propext, Classical.choice, Quot.sound]
Verif.C33_decides depends on axioms: [propext, Classical.choice, Quot.sound]
Verif.C33_poison depends on axioms: [propext, Classical.choice, Quot.sound]
Verif.C33_partial depends on axioms: [propext, Classical.choice, Quot.sound]
Verif.C33_false depends on axioms: [propext, Classical.choice, Quot.sound]
Verif.C34_weight depends on axioms: [propext, Quot.sound]
Verif.C34_modes depends on axioms: [propext, Classical.choice, Quot.sound]
Verif.C34_checked depends on axioms: [propext, Classical.choice, Quot.sound]
Verif.C34_lost depends on axioms: [propext, Classical.choice, Quot.sound]
Verif.C34_exact depends on axioms: [propext, Classical.choice, Quot.sound]
Verif.C34_broken depends on axioms: [propext, Classical.choice, Quot.sound]
Verif.C35_drop depends on axioms: [propext, Classical.choice, Quot.sound]
Verif.C35_false depends on axioms: [propext, Classical.choice, Quot.sound]
Verif.C35_partial depends on axioms: [propext, Classical.choice, Quot.sound]
Verif.C35_poison depends on axioms: [propext, Classical.choice, Quot.sound]
Verif.C35_reachable depends on axioms: [propext, Classical.choice, Quot.sound]
Verif.C36 depends on axioms: [propext, Classical.choice, Quot.sound]
Verif.C36_total depends on axioms: [propext, Classical.choice, Quot.sound]
Verif.C37 depends on axioms: [propext, Classical.choice, Quot.sound]
Verif.C37_unique depends on axioms: [propext, Classical.choice, Quot.sound]
Verif.C38_forge depends on axioms: [propext, Classical.choice, Quot.sound]
Verif.C38_false depends on axioms: [propext, Classical.choice, Quot.sound]
Verif.C38_partial depends on axioms: [propext, Classical.choice, Quot.sound]
Verif.C39 depends on axioms: [propext, Classical.choice, Quot.sound]
Verif.C39_challenge depends on axioms: [propext, Classical.choice, Quot.sound]
Verif.C39_response depends on axioms: [propext, Classical.choice, Quot.sound]
Verif.C39_statement depends on axioms: [propext, Classical.choice, Quot.sound]
Verif.C40 depends on axioms: [propext, Classical.choice, Quot.sound]
Verif.C40_total depends on axioms: [propext, Classical.choice, Quot.sound]
Verif.C41 depends on axioms: [propext, Classical.choice, Quot.sound]
Verif.C41_unique depends on axioms: [propext, Classical.choice, Quot.sound]
Verif.C41_binding does not depend on any axioms
Verif.C42 depends on axioms: [propext, Classical.choice, Quot.sound]
Verif.C42_challenge depends on axioms: [propext, Classical.choice, Quot.sound]
Verif.C42_response depends on axioms: [propext, Classical.choice, Quot.sound]
Verif.C43 depends on axioms: [propext, Classical.choice, Quot.sound]
Verif.C43_total depends on axioms: [propext, Classical.choice, Quot.sound]
Verif.C43_err depends on axioms: [propext, Classical.choice, Quot.sound]
Verif.C43_digest depends on axioms: [propext, Classical.choice, Quot.sound]
Verif.C44 depends on axioms: [propext, Classical.choice, Quot.sound]
Verif.C44_total depends on axioms: [propext, Classical.choice, Quot.sound]
Verif.C45 depends on axioms: [propext, Classical.choice, Quot.sound]
Verif.C45_nonce_reuse depends on axioms: [propext, Classical.choice, Quot.sound]
Verif.C45_key_unique depends on axioms: [propext, Classical.choice, Quot.sound]
Verif.C45_response_unique depends on axioms: [propext, Classical.choice, Quot.sound]
Verif.C46_forge depends on axioms: [propext, Classical.choice, Quot.sound]
Verif.C46_false depends on axioms: [propext, Classical.choice, Quot.sound]
Verif.C46_partial depends on axioms: [propext, Classical.choice, Quot.sound]
Verif.C47 depends on axioms: [propext, Classical.choice, Quot.sound]
Verif.C47_empty depends on axioms: [propext, Classical.choice, Quot.sound]
Verif.C47_one depends on axioms: [propext, Classical.choice, Quot.sound]
Verif.C48 depends on axioms: [propext, Classical.choice, Quot.sound]
Verif.C49 depends on axioms: [propext, Classical.choice, Quot.sound]
Verif.C50_schnorr depends on axioms: [propext]
Verif.C50_dleq does not depend on any axioms
Verif.C50_dlk depends on axioms: [propext, Classical.choice, Quot.sound]
Verif.C50_verify depends on axioms: [propext, Classical.choice, Quot.sound]
Verif.C50_prove depends on axioms: [propext, Classical.choice, Quot.sound]
Verif.C50_personas depends on axioms: [propext, Classical.choice, Quot.sound]
Verif.C51_field depends on axioms: [propext, Classical.choice, Quot.sound]
Verif.C51_deterministic depends on axioms: [propext, Classical.choice, Quot.sound]
Verif.C51_group depends on axioms: [propext, Classical.choice, Quot.sound]
Verif.C51_subgroup depends on axioms: [propext, Classical.choice, Quot.sound]
Verif.C52_srs depends on axioms: [propext]
Verif.C52_config depends on axioms: [propext, Classical.choice, Quot.sound]
Verif.C52_participant depends on axioms: [propext, Classical.choice, Quot.sound]
Verif.C52_core depends on axioms: [propext, Classical.choice, Quot.sound]
Verif.C52_decompProof depends on axioms: [propext]
Verif.C52_signedProof depends on axioms: [propext, Classical.choice, Quot.sound]
Verif.C52_pvssShare depends on axioms: [propext, Classical.choice, Quot.sound]
Verif.C52_aggShare depends on axioms: [propext, Classical.choice, Quot.sound]
Verif.C52_eddsa depends on axioms: [propext, Classical.choice, Quot.sound]
Verif.C53 depends on axioms: [propext, Quot.sound]
Verif.C54_short depends on axioms: [propext, Quot.sound]
Verif.C54_long depends on axioms: [propext, Quot.sound]
Verif.C55_bls_partial depends on axioms: [propext, Classical.choice, Quot.sound]
Verif.C55_infinity depends on axioms: [propext, Classical.choice, Quot.sound]
Verif.C55_bls_false depends on axioms: [propext, Classical.choice, Quot.sound]
Verif.C55_dup depends on axioms: [propext, Classical.choice, Quot.sound]
Verif.C55_false depends on axioms: [propext, Classical.choice, Quot.sound]
Verif.C55_points_partial depends on axioms: [propext, Classical.choice, Quot.sound]
Verif.C55_partial depends on axioms: [propext, Classical.choice, Quot.sound]
Verif.C56_roundtrip depends on axioms: [propext, Classical.choice, Quot.sound]
Verif.C56_public depends on axioms: [propext, Classical.choice, Quot.sound]
Verif.C56_secret depends on axioms: [propext, Classical.choice, Quot.sound]
Verif.C57_display depends on axioms: [propext, Classical.choice, Quot.sound]
Verif.C57_collision depends on axioms: [propext, Classical.choice, Quot.sound]
Verif.C57_debug depends on axioms: [propext, Classical.choice, Quot.sound]
Verif.C58_sign depends on axioms: [propext]
Verif.C58_split depends on axioms: [propext]
Verif.C58_verify depends on axioms: [propext]
Verif.C58_batch depends on axioms: [propext, Classical.choice, Quot.sound]
Verif.C59 depends on axioms: [propext, Classical.choice, Quot.sound]
Verif.C59_share depends on axioms: [propext, Classical.choice, Quot.sound]
Verif.C59_zero depends on axioms: [propext, Classical.choice, Quot.sound]
Verif.C60 depends on axioms: [propext, Classical.choice, Quot.sound]
Verif.C61_prime depends on axioms: [propext, Classical.choice, Quot.sound]
Verif.C61_size depends on axioms: [propext]
Verif.C61_injective depends on axioms: [propext, Classical.choice, Quot.sound]
Verif.C62_partial depends on axioms: [propext, Classical.choice, Quot.sound]
Verif.C62_accept depends on axioms: [propext, Classical.choice, Quot.sound]
Verif.C62_lockout depends on axioms: [propext, Classical.choice, Quot.sound]
Verif.C62_wrap depends on axioms: [propext, Classical.choice, Quot.sound]
Verif.C62_false depends on axioms: [propext, Classical.choice, Quot.sound]
Verif.C63_partial depends on axioms: [propext, Classical.choice, Quot.sound]
Verif.C63_phantom depends on axioms: [propext, Classical.choice, Quot.sound]
Verif.C63_false depends on axioms: [propext, Classical.choice, Quot.sound]
Verif.C64_pairs depends on axioms: [propext, Classical.choice, Quot.sound]
Verif.C64_injective depends on axioms: [propext, Classical.choice, Quot.sound]
Verif.C64_setup depends on axioms: [propext, Classical.choice, Quot.sound]
Verif.C64_generators depends on axioms: [propext, Classical.choice, Quot.sound]
Verif.C65_layout depends on axioms: [propext, Quot.sound]
Verif.C65_size depends on axioms: [propext, Quot.sound]
Verif.C65_bls depends on axioms: [propext, Quot.sound]
Verif.C66_drop depends on axioms: [propext, Quot.sound]
Verif.C66_debug depends on axioms: [propext, Classical.choice, Quot.sound]
Verif.C67 depends on axioms: [propext]
Verif.C68 depends on axioms: [propext, Quot.sound]
Verif.C69_dlk depends on axioms: [propext, Classical.choice, Quot.sound]
Verif.C69_dleq depends on axioms: [propext, Classical.choice, Quot.sound]
Verif.C69_schnorr depends on axioms: [propext, Classical.choice, Quot.sound]
Verif.C70 depends on axioms: [propext, Classical.choice, Quot.sound]
Verif.C71 depends on axioms: [propext, Classical.choice, Quot.sound]
Verif.C72_share depends on axioms: [propext, Classical.choice, Quot.sound]
Verif.C72_agg depends on axioms: [propext, Classical.choice, Quot.sound]
Verif.C73 depends on axioms: [propext, Classical.choice, Quot.sound]
Verif.C73_large depends on axioms: [propext, Classical.choice, Quot.sound]
Verif.C73_contents depends on axioms: [propext, Classical.choice, Quot.sound]
Verif.C74_replay depends on axioms: [propext, Classical.choice, Quot.sound]
Verif.C74_replay_agg depends on axioms: [propext, Classical.choice, Quot.sound]
Verif.C74_threshold depends on axioms: [propext, Classical.choice, Quot.sound]
Verif.C74_partial depends on axioms: [propext, Classical.choice, Quot.sound]
Verif.C74_false depends on axioms: [propext, Classical.choice, Quot.sound]
Verif.C75_copy depends on axioms: [propext, Classical.choice, Quot.sound]
Verif.C75_related depends on axioms: [propext, Classical.choice, Quot.sound]
Verif.C75_false depends on axioms: [propext, Classical.choice, Quot.sound]
Verif.C75_partial depends on axioms: [propext, Classical.choice, Quot.sound]
Verif.C76_cancel depends on axioms: [propext, Classical.choice, Quot.sound]
Verif.C76_false depends on axioms: [propext, Classical.choice, Quot.sound]
Verif.C76_partial depends on axioms: [propext, Classical.choice, Quot.sound]
Verif.C77_encode depends on axioms: [propext, Classical.choice, Quot.sound]
Verif.C77_positions depends on axioms: [propext, Classical.choice, Quot.sound]
Verif.C77_decode depends on axioms: [propext, Classical.choice, Quot.sound]
Verif.C77_texts depends on axioms: [propext, Classical.choice, Quot.sound]
Verif.C78 depends on axioms: [propext, Classical.choice, Quot.sound]
Verif.C78_order depends on axioms: [propext, Classical.choice, Quot.sound]
Verif.C78_verdict depends on axioms: [propext, Classical.choice, Quot.sound]
Verif.C78_equivocation depends on axioms: [propext, Classical.choice, Quot.sound]
Verif.C79 depends on axioms: [propext, Classical.choice, Quot.sound]
Verif.C79_agree depends on axioms: [propext, Classical.choice, Quot.sound]
Verif.C79_accepted depends on axioms: [propext, Classical.choice, Quot.sound]
Verif.C80_attack depends on axioms: [propext, Classical.choice, Quot.sound]
Verif.C80_partial depends on axioms: [propext, Classical.choice, Quot.sound]
Verif.C80_false depends on axioms: [propext, Classical.choice, Quot.sound]
Verif.C81 depends on axioms: [propext, Classical.choice, Quot.sound]
Verif.C81_secret depends on axioms: [propext, Classical.choice, Quot.sound]
Verif.C82_bls depends on axioms: [propext, Classical.choice, Quot.sound]
Verif.C82_partial depends on axioms: [propext, Quot.sound]
Verif.C82_panic depends on axioms: [propext, Quot.sound]
Verif.C82_truncated depends on axioms: [propext, Classical.choice, Quot.sound]
Verif.C82_prefix depends on axioms: [propext, Classical.choice, Quot.sound]
Verif.C82_false depends on axioms: [propext, Classical.choice, Quot.sound]
Verif.C82_transcript depends on axioms: [propext, Classical.choice, Quot.sound]
Verif.C83 depends on axioms: [propext, Classical.choice, Quot.sound]
Verif.C83_agree depends on axioms: [propext, Classical.choice, Quot.sound]
Verif.C83_outcome depends on axioms: [propext, Classical.choice, Quot.sound]
Verif.C84_partial depends on axioms: [propext, Classical.choice, Quot.sound]
Verif.C84_panic depends on axioms: [propext, Classical.choice, Quot.sound]
Verif.C84_wrap depends on axioms: [propext, Classical.choice, Quot.sound]
Verif.C84_false depends on axioms: [propext, Classical.choice, Quot.sound]
Verif.C85_count depends on axioms: [propext, Classical.choice, Quot.sound]
Verif.C85_share depends on axioms: [propext, Classical.choice, Quot.sound]
Verif.C85_setting depends on axioms: [propext, Classical.choice, Quot.sound]
Verif.C85 depends on axioms: [propext, Classical.choice, Quot.sound]
Verif.C85_agree depends on axioms: [propext, Classical.choice, Quot.sound]
Verif.C85_limit depends on axioms: [propext, Classical.choice, Quot.sound]
Verif.C86 depends on axioms: [propext, Classical.choice, Quot.sound]
Verif.C87_share depends on axioms: [propext, Classical.choice, Quot.sound]
Verif.C87_agg depends on axioms: [propext, Classical.choice, Quot.sound]
Verif.C87_merge depends on axioms: [propext, Classical.choice, Quot.sound]
Verif.C87_batch depends on axioms: [propext, Classical.choice, Quot.sound]
Verif.C88_template depends on axioms: [propext, Classical.choice, Quot.sound]
Verif.C88_label_false depends on axioms: [propext, Classical.choice, Quot.sound]
Verif.C88_empty_false depends on axioms: [propext, Classical.choice, Quot.sound]
Verif.C88_text_partial depends on axioms: [propext, Classical.choice, Quot.sound]
Verif.C88_core_partial depends on axioms: [propext, Classical.choice, Quot.sound]
Verif.C88_tx_partial depends on axioms: [propext, Classical.choice, Quot.sound]
Verif.C89_add depends on axioms: [propext, Classical.choice, Quot.sound]
Verif.C89_neg depends on axioms: [propext, Classical.choice, Quot.sound]
Verif.C89_det depends on axioms: [propext, Classical.choice, Quot.sound]
Verif.C89_bind depends on axioms: [propext, Classical.choice, Quot.sound]
Verif.C89_codeword depends on axioms: [propext, Classical.choice, Quot.sound]
Verif.C89 depends on axioms: [propext, Classical.choice, Quot.sound]
Verif.C90 depends on axioms: [propext, Classical.choice, Quot.sound]
Verif.C91_origin depends on axioms: [propext, Classical.choice, Quot.sound]
Verif.C91 depends on axioms: [propext, Classical.choice, Quot.sound]
Verif.C91_secret depends on axioms: [propext, Classical.choice, Quot.sound]
Verif.C92 depends on axioms: [propext, Classical.choice, Quot.sound]
Verif.C92_group depends on axioms: [propext, Classical.choice, Quot.sound]
Verif.C93 depends on axioms: [propext, Classical.choice, Quot.sound]
Verif.C93_schnorr depends on axioms: [propext, Classical.choice, Quot.sound]
Verif.C93_sound depends on axioms: [propext, Classical.choice, Quot.sound]
Verif.C94 depends on axioms: [propext, Classical.choice, Quot.sound]
Verif.C94_extract depends on axioms: [propext, Classical.choice, Quot.sound]
Verif.C95 depends on axioms: [propext, Classical.choice, Quot.sound]
Verif.C95_exact depends on axioms: [propext, Classical.choice, Quot.sound]
Verif.C95_predict depends on axioms: [propext, Classical.choice, Quot.sound]
Verif.C95_decide depends on axioms: [propext, Classical.choice, Quot.sound]
Verif.C96_groups depends on axioms: [propext, Classical.choice, Quot.sound]
Verif.C96_pair depends on axioms: [propext, Classical.choice, Quot.sound]
Verif.C96_pair_exists depends on axioms: [propext, Classical.choice, Quot.sound]
Verif.C96_codec depends on axioms: [propext, Classical.choice, Quot.sound]
Verif.C96_canonical depends on axioms: [propext, Classical.choice, Quot.sound]
Verif.C96_infinity depends on axioms: [propext, Classical.choice, Quot.sound]
Verif.C96_not_canonical depends on axioms: [propext, Classical.choice, Quot.sound]
Verif.C96_scalar depends on axioms: [propext, Classical.choice, Quot.sound]
Verif.C96_hash depends on axioms: [propext, Classical.choice, Quot.sound]
Verif.C96 depends on axioms: [propext, Classical.choice, Quot.sound]
Verif.C97_verify depends on axioms: [propext]
Verif.C97_unique depends on axioms: [propext, Classical.choice, Quot.sound]
Verif.C97 depends on axioms: [propext, Classical.choice, Quot.sound]
Verif.C98_lengths depends on axioms: [propext]
Verif.C98_identity depends on axioms: [propext, Classical.choice, Quot.sound]
Verif.C98_false depends on axioms: [propext, Classical.choice, Quot.sound]
Verif.C98_single depends on axioms: [propext, Classical.choice, Quot.sound]
Verif.C98_partial depends on axioms: [propext, Classical.choice, Quot.sound]
Verif.C98_honest depends on axioms: [propext, Classical.choice, Quot.sound]
Verif.C99 depends on axioms: [propext, Classical.choice, Quot.sound]
Verif.C100 depends on axioms: [propext, Classical.choice, Quot.sound]
Verif.C100_curve depends on axioms: [propext, Classical.choice, Quot.sound]
Verif.C100_add depends on axioms: [propext, Classical.choice, Quot.sound]
Verif.C100_canonical depends on axioms: [propext, Classical.choice, Quot.sound]
Verif.C100_deploy depends on axioms: [propext, Classical.choice, Quot.sound]
Verif.C101_dlk_simple depends on axioms: [propext, Classical.choice, Quot.sound]
Verif.C101_dlk_wrong_statement depends on axioms: [propext, Classical.choice, Quot.sound]
Verif.C101_dlk_commitment depends on axioms: [propext, Classical.choice, Quot.sound]
Verif.C101_dlk_challenge depends on axioms: [propext, Classical.choice, Quot.sound]
Verif.C101_dlk_response depends on axioms: [propext, Classical.choice, Quot.sound]
Verif.C101_dlk_serialization depends on axioms: [propext, Classical.choice, Quot.sound]
Verif.C101_dleq_simple depends on axioms: [propext, Classical.choice, Quot.sound]
Verif.C101_dleq_benchmark depends on axioms: [propext, Classical.choice, Quot.sound]
Verif.C101_dleq_wrong_statement depends on axioms: [propext, Classical.choice, Quot.sound]
Verif.C101_dleq_commitment depends on axioms: [propext, Classical.choice, Quot.sound]
Verif.C101_dleq_challenge depends on axioms: [propext, Classical.choice, Quot.sound]
Verif.C101_dleq_response depends on axioms: [propext, Classical.choice, Quot.sound]
Verif.C101_dleq_serialization depends on axioms: [propext, Classical.choice, Quot.sound]
Verif.C101_schnorr_simple depends on axioms: [propext, Classical.choice, Quot.sound]
Verif.C101_schnorr_wrong_pk depends on axioms: [propext, Classical.choice, Quot.sound]
Verif.C101_schnorr_wrong_message depends on axioms: [propext, Classical.choice, Quot.sound]
Verif.C101_schnorr_batch depends on axioms: [propext, Classical.choice, Quot.sound]
Verif.C101_schnorr_serialization depends on axioms: [propext, Classical.choice, Quot.sound]
Verif.C101_share_signed depends on axioms: [propext, Classical.choice, Quot.sound]
Verif.C101_share_empty depends on axioms: [propext, Classical.choice, Quot.sound]
Verif.C101_share_create depends on axioms: [propext, Classical.choice, Quot.sound]
Verif.C101_share_one depends on axioms: [propext, Classical.choice, Quot.sound]
Verif.C101_share_two depends on axioms: [propext, Classical.choice, Quot.sound]
Verif.C101_share_serialization depends on axioms: [propext, Classical.choice, Quot.sound]
Verif.C101_share_agg_serialization depends on axioms: [propext, Classical.choice, Quot.sound]
Verif.C101_node_one depends on axioms: [propext, Classical.choice, Quot.sound]
Verif.C101_node_four depends on axioms: [propext, Classical.choice, Quot.sound]
Verif.C101_node_double depends on axioms: [propext, Classical.choice, Quot.sound]
Verif.C101_decomp_simple depends on axioms: [propext, Classical.choice, Quot.sound]
Verif.C101_decomp_invalid depends on axioms: [propext, Classical.choice, Quot.sound]
Verif.C101_decomp_serialization depends on axioms: [propext, Classical.choice, Quot.sound]
Verif.C101_pvss_empty depends on axioms: [propext]
Verif.C101_pvss_neq depends on axioms: [propext]
Verif.C101_pvss_aggregation depends on axioms: [propext]
Verif.C101_pvss_mismatch depends on axioms: [propext]
Verif.C101_pvss_serialization depends on axioms: [propext, Classical.choice, Quot.sound]
Verif.C101_poly_sample depends on axioms: [propext, Classical.choice, Quot.sound]
Verif.C101_poly_degree depends on axioms: [propext, Classical.choice, Quot.sound]
Verif.C101_poly_insufficient depends on axioms: [propext, Classical.choice, Quot.sound]
Verif.C101_poly_simple depends on axioms: [propext, Classical.choice, Quot.sound]
Verif.C101_poly_g2 depends on axioms: [propext, Classical.choice, Quot.sound]
Verif.C101_poly_gt depends on axioms: [propext, Classical.choice, Quot.sound]
Verif.C101_poly_sets depends on axioms: [propext, Classical.choice, Quot.sound]
Verif.C102_order depends on axioms: [propext, Classical.choice, Quot.sound]
Verif.C102_subgroup depends on axioms: [propext, Classical.choice, Quot.sound]
Verif.C102_read depends on axioms: [propext, Classical.choice, Quot.sound]
Verif.C102_points depends on axioms: [propext, Classical.choice, Quot.sound]
Verif.C102_uniform depends on axioms: [propext, Classical.choice, Quot.sound]
Verif.C102 depends on axioms: [propext, Classical.choice, Quot.sound]
Verif.C103_scalar depends on axioms: [propext, Classical.choice, Quot.sound]
Verif.C103_draws depends on axioms: [propext, Classical.choice, Quot.sound]
Verif.C103_point depends on axioms: [propext, Classical.choice, Quot.sound]
Verif.C103_srs depends on axioms: [propext, Classical.choice, Quot.sound]
Verif.C104_degree depends on axioms: [propext, Classical.choice, Quot.sound]
Verif.C104_attack depends on axioms: [propext, Classical.choice, Quot.sound]
Verif.C104_batch depends on axioms: [propext, Classical.choice, Quot.sound]
Verif.C104_deploy depends on axioms: [propext, Classical.choice, Quot.sound]
Verif.C104_secrecy depends on axioms: [propext, Classical.choice, Quot.sound]
Verif.C104_tampered depends on axioms: [propext, Classical.choice, Quot.sound]
Verif.C104_dealing depends on axioms: [propext, Classical.choice, Quot.sound]
Verif.C105_share depends on axioms: [propext, Classical.choice, Quot.sound]
Verif.C105_aggregated depends on axioms: [propext, Classical.choice, Quot.sound]
Verif.C105_verify depends on axioms: [propext, Classical.choice, Quot.sound]
Verif.C105_prove depends on axioms: [propext, Classical.choice, Quot.sound]
Verif.C105_batch depends on axioms: [propext, Classical.choice, Quot.sound]
Verif.C105_deal depends on axioms: [propext, Classical.choice, Quot.sound]
Verif.C105_aggregated_needed depends on axioms: [propext, Classical.choice, Quot.sound]
Verif.C106_bounded depends on axioms: [propext, Classical.choice, Quot.sound]
Verif.C106_permanent depends on axioms: [propext, Classical.choice, Quot.sound]
Verif.C107_sound depends on axioms: [propext, Classical.choice, Quot.sound]
Verif.C107_complete depends on axioms: [propext, Classical.choice, Quot.sound]
Verif.C107_slots depends on axioms: [propext, Classical.choice, Quot.sound]
Verif.C108_bytes depends on axioms: [propext]
Verif.C108_key depends on axioms: [propext, Classical.choice, Quot.sound]
Verif.C108_verify depends on axioms: [propext, Classical.choice, Quot.sound]
Verif.C108_owner depends on axioms: [propext, Classical.choice, Quot.sound]
Verif.C108_batch depends on axioms: [propext, Classical.choice, Quot.sound]
Verif.C108_order depends on axioms: [propext, Classical.choice, Quot.sound]
Verif.C109 depends on axioms: [propext, Classical.choice, Quot.sound]
Verif.C109_use depends on axioms: [propext, Classical.choice, Quot.sound]
Verif.C110 depends on axioms: [propext, Classical.choice, Quot.sound]
Verif.C110_extract depends on axioms: [propext, Classical.choice, Quot.sound]
Verif.C111_formats depends on axioms: [propext, Classical.choice, Quot.sound]
Verif.C111_layout depends on axioms: [propext, Quot.sound]
Verif.C111_hash depends on axioms: [propext]
Verif.C111_bls depends on axioms: [propext, Classical.choice, Quot.sound]
Verif.C112_g1_write depends on axioms: [propext, Classical.choice, Quot.sound]
Verif.C112_g2_write depends on axioms: [propext, Classical.choice, Quot.sound]
Verif.C112_g1_read depends on axioms: [propext, Classical.choice, Quot.sound]
Verif.C112_g2_read depends on axioms: [propext, Classical.choice, Quot.sound]
Verif.C112_scalar depends on axioms: [propext, Classical.choice, Quot.sound]
Verif.C112_generator depends on axioms: [propext, Classical.choice, Quot.sound]
Verif.C112_generator2 depends on axioms: [propext, Classical.choice, Quot.sound]
Verif.C113 depends on axioms: [propext, Classical.choice, Quot.sound]
Verif.C113_agreement depends on axioms: [propext, Classical.choice, Quot.sound]
Verif.C113_bls depends on axioms: [propext, Classical.choice, Quot.sound]
Verif.C114 depends on axioms: [propext, Classical.choice, Quot.sound]
Verif.C114_honest depends on axioms: [propext, Classical.choice, Quot.sound]
Verif.C114_attack depends on axioms: [propext, Classical.choice, Quot.sound]
Verif.C114_bls depends on axioms: [propext, Classical.choice, Quot.sound]
Verif.C115_clamp depends on axioms: [propext, Classical.choice, Quot.sound]
Verif.C115_eddsa depends on axioms: [propext, Classical.choice, Quot.sound]
Verif.C115_epoch depends on axioms: [propext, Classical.choice, Quot.sound]
Verif.C115_test depends on axioms: [propext, Classical.choice, Quot.sound]
Verif.C115_blake depends on axioms: [propext, Classical.choice, Quot.sound]
Verif.C115_loops depends on axioms: [propext, Classical.choice, Quot.sound]
Verif.C115_counter depends on axioms: [propext, Quot.sound]
Verif.C115_sha depends on axioms: [propext, Classical.choice, Quot.sound]
Verif.C115_answers depends on axioms: [propext, Classical.choice, Quot.sound]
Verif.C115_shake depends on axioms: [propext, Classical.choice, Quot.sound]
Verif.C115_signed depends on axioms: [propext, Classical.choice, Quot.sound]
Verif.C115_blocks depends on axioms: [propext, Classical.choice, Quot.sound]
Verif.C116_group depends on axioms: [propext, Classical.choice, Quot.sound]
Verif.C116_small depends on axioms: [propext, Classical.choice, Quot.sound]
Verif.C116_keys depends on axioms: [propext, Classical.choice, Quot.sound]
Verif.C116_verify depends on axioms: [propext, Classical.choice, Quot.sound]
Verif.C116_batch depends on axioms: [propext, Classical.choice, Quot.sound]
Verif.C116_reject depends on axioms: [propext, Classical.choice, Quot.sound]
Verif.C117_complete depends on axioms: [propext, Classical.choice, Quot.sound]
Verif.C117_dlk depends on axioms: [propext, Classical.choice, Quot.sound]
Verif.C117_sound depends on axioms: [propext, Classical.choice, Quot.sound]
Verif.C117_key depends on axioms: [propext, Classical.choice, Quot.sound]
Verif.C118 depends on axioms: [propext, Classical.choice, Quot.sound]
Verif.C118_merge depends on axioms: [propext, Classical.choice, Quot.sound]
Verif.C118_share depends on axioms: [propext, Classical.choice, Quot.sound]
Verif.C118_network depends on axioms: [propext, Classical.choice, Quot.sound]
Verif.C118_same depends on axioms: [propext, Classical.choice, Quot.sound]
Verif.C118_limit depends on axioms: [propext, Classical.choice, Quot.sound]
Verif.C119_meaning depends on axioms: [propext, Classical.choice, Quot.sound]
Verif.C119_products depends on axioms: [propext, Classical.choice, Quot.sound]
Verif.C119 depends on axioms: [propext, Classical.choice, Quot.sound]
Verif.C119_values depends on axioms: [propext, Classical.choice, Quot.sound]
Verif.C119_bls depends on axioms: [propext, Classical.choice, Quot.sound]
Verif.C120_honest depends on axioms: [propext, Classical.choice, Quot.sound]
Verif.C120_simulated depends on axioms: [propext, Classical.choice, Quot.sound]
Verif.C120 depends on axioms: [propext, Classical.choice, Quot.sound]
Verif.C120_log depends on axioms: [propext, Classical.choice, Quot.sound]
Verif.C120_predetermined depends on axioms: [propext, Classical.choice, Quot.sound]
Verif.C121_share depends on axioms: [propext, Classical.choice, Quot.sound]
Verif.C121_entry depends on axioms: [propext, Classical.choice, Quot.sound]
Verif.C121_deal depends on axioms: [propext, Classical.choice, Quot.sound]
Verif.C121_honest depends on axioms: [propext, Classical.choice, Quot.sound]
Verif.C121_copy depends on axioms: [propext, Classical.choice, Quot.sound]
Verif.C122_knowledge depends on axioms: [propext, Classical.choice, Quot.sound]
Verif.C122_table depends on axioms: [propext, Classical.choice, Quot.sound]
Verif.C122_dleq depends on axioms: [propext, Classical.choice, Quot.sound]
Verif.C122_dlk depends on axioms: [propext, Classical.choice, Quot.sound]
Verif.C122_schnorr depends on axioms: [propext, Classical.choice, Quot.sound]
Verif.C123 depends on axioms: [propext, Classical.choice, Quot.sound]
Verif.C123_compatible depends on axioms: [propext, Classical.choice, Quot.sound]
Verif.C123_refused depends on axioms: [propext, Classical.choice, Quot.sound]
Verif.C123_bls depends on axioms: [propext, Classical.choice, Quot.sound]
Verif.C124_verify depends on axioms: [propext, Classical.choice, Quot.sound]
Verif.C124_complete depends on axioms: [propext, Classical.choice, Quot.sound]
Verif.C124_sound depends on axioms: [propext, Classical.choice, Quot.sound]
Verif.C125 depends on axioms: [propext, Classical.choice, Quot.sound]
Verif.C125_wire depends on axioms: [propext, Classical.choice, Quot.sound]
Verif.C125_lasting depends on axioms: [propext, Classical.choice, Quot.sound]
Verif.C125_attack depends on axioms: [propext, Classical.choice, Quot.sound]
Verif.C125_honest depends on axioms: [propext, Classical.choice, Quot.sound]
Verif.C125_share depends on axioms: [propext, Classical.choice, Quot.sound]
Verif.C125_exchange depends on axioms: [propext, Classical.choice, Quot.sound]
Verif.C125_network depends on axioms: [propext, Classical.choice, Quot.sound]
Verif.C125_bls depends on axioms: [propext, Classical.choice, Quot.sound]
Verif.C126 depends on axioms: [propext, Classical.choice, Quot.sound]
Verif.C126_tests depends on axioms: [propext, Classical.choice, Quot.sound]
Verif.C126_repr depends on axioms: [propext, Classical.choice, Quot.sound]
Verif.C126_normalization depends on axioms: [propext, Classical.choice, Quot.sound]
Verif.C126_msm depends on axioms: [propext, Classical.choice, Quot.sound]
Verif.C126_field depends on axioms: [propext, Classical.choice, Quot.sound]
Verif.C126_bls depends on axioms: [propext, Classical.choice, Quot.sound]
Verif.C127_deal depends on axioms: [propext, Classical.choice, Quot.sound]
Verif.C127_simulation depends on axioms: [propext, Classical.choice, Quot.sound]
Verif.C127_extract depends on axioms: [propext, Classical.choice, Quot.sound]
Verif.C127 depends on axioms: [propext, Classical.choice, Quot.sound]
Verif.C128 depends on axioms: [propext, Classical.choice, Quot.sound]
Verif.C128_expr depends on axioms: [propext, Classical.choice, Quot.sound]
Verif.C128_bls depends on axioms: [propext]
Verif.C129 depends on axioms: [propext, Classical.choice, Quot.sound]
Verif.C129_storage depends on axioms: [propext, Classical.choice, Quot.sound]
Verif.C129_bls depends on axioms: [propext, Classical.choice, Quot.sound]
Verif.C130_points depends on axioms: [propext, Classical.choice, Quot.sound]
Verif.C130_entries depends on axioms: [propext, Classical.choice, Quot.sound]
Verif.C130_digits depends on axioms: [propext, Classical.choice, Quot.sound]
Verif.C130_mul depends on axioms: [propext, Classical.choice, Quot.sound]
Verif.C130 depends on axioms: [propext, Classical.choice, Quot.sound]
Verif.C131_field depends on axioms: [propext, Classical.choice, Quot.sound]
Verif.C131_points depends on axioms: [propext, Classical.choice, Quot.sound]
Verif.C131 depends on axioms: [propext, Classical.choice, Quot.sound]
Verif.C132_scalar depends on axioms: [propext, Classical.choice, Quot.sound]
Verif.C132 depends on axioms: [propext, Classical.choice, Quot.sound]
Verif.C133_label depends on axioms: [propext, Classical.choice, Quot.sound]
Verif.C133_core depends on axioms: [propext, Classical.choice, Quot.sound]
Verif.C133_text depends on axioms: [propext, Classical.choice, Quot.sound]
