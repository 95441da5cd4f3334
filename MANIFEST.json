{
 "claims": [
  {
   "property": "C01",
   "status": "proved",
   "theorems": [
    "Verif.C01",
    "Verif.C01_sample"
   ],
   "note": ""
  },
  {
   "property": "C02",
   "status": "proved",
   "theorems": [
    "Verif.C02",
    "Verif.C02_large"
   ],
   "note": ""
  },
  {
   "property": "C03",
   "status": "proved",
   "theorems": [
    "Verif.C03",
    "Verif.C03_fresh"
   ],
   "note": "n = t+1 is covered only for Mode.wrapping (see DESIGN, build modes); num_participants < 2^58 (allocation limit of the coefficient vector)."
  },
  {
   "property": "C04",
   "status": "proved",
   "theorems": [
    "Verif.C04"
   ],
   "note": ""
  },
  {
   "property": "C05",
   "status": "proved",
   "theorems": [
    "Verif.C05"
   ],
   "note": ""
  },
  {
   "property": "C06",
   "status": "proved",
   "theorems": [
    "Verif.C06_g1",
    "Verif.C06_g2"
   ],
   "note": ""
  },
  {
   "property": "C07",
   "status": "proved",
   "theorems": [
    "Verif.C07"
   ],
   "note": ""
  },
  {
   "property": "C08",
   "status": "proved",
   "theorems": [
    "Verif.C08",
    "Verif.C08_group",
    "Verif.C08_linear"
   ],
   "note": ""
  },
  {
   "property": "C09",
   "status": "proved",
   "theorems": [
    "Verif.C09",
    "Verif.C09_codeword"
   ],
   "note": ""
  },
  {
   "property": "C10",
   "status": "proved",
   "theorems": [
    "Verif.C10_g1",
    "Verif.C10_g2",
    "Verif.C10_gt",
    "Verif.C10_simple"
   ],
   "note": ""
  },
  {
   "property": "C11",
   "status": "proved",
   "theorems": [
    "Verif.C11"
   ],
   "note": ""
  },
  {
   "property": "C12",
   "status": "proved",
   "theorems": [
    "Verif.C12",
    "Verif.C12_group"
   ],
   "note": "Length below 2^58: above it the coefficient vector cannot be allocated."
  },
  {
   "property": "C13",
   "status": "proved",
   "theorems": [
    "Verif.C13"
   ],
   "note": "n >= t+2; the boundary cases are C14."
  },
  {
   "property": "C14",
   "status": "proved",
   "theorems": [
    "Verif.C14_err",
    "Verif.C14_eq",
    "Verif.C14_succ_checked",
    "Verif.C14_succ_wrapping",
    "Verif.C14_succ_wrappingIncl",
    "Verif.C14_ge"
   ],
   "note": "Three build modes; the release behaviour at n = degree+1 depends on a dependency whose source is not in /repo, both forms are proved."
  },
  {
   "property": "C15",
   "status": "proved",
   "theorems": [
    "Verif.C15",
    "Verif.C15_boundary"
   ],
   "note": "Iff for n >= t+2; C15_boundary shows that below that only Mode.wrapping with n = t+1 can accept."
  },
  {
   "property": "C16",
   "status": "partial",
   "theorems": [
    "Verif.C16_forge",
    "Verif.C16_partial",
    "Verif.C16_false"
   ],
   "note": "False of the code: C16_false (concrete witness), C16_forge (every accepted share can be altered). Proved part: the sender's own encryption is correct. With the check of every slot that is commented out at aggregator.rs:166-180 the claim holds (C114)."
  },
  {
   "property": "C17",
   "status": "partial",
   "theorems": [
    "Verif.C17_maul",
    "Verif.C17_false",
    "Verif.C17_partial"
   ],
   "note": "False of the code: C17_false, C17_maul (public re-randomisation keeping the signed proof). Proved part: both shares commit to the signed gs. With session, dealer and statement in the hashes and the whole share signed the claim holds up to forgeries and collisions: C121."
  },
  {
   "property": "C18",
   "status": "proved",
   "theorems": [
    "Verif.C18_signed",
    "Verif.C18_never_signedProofError",
    "Verif.C18_share",
    "Verif.C18_agg",
    "Verif.C18_panics"
   ],
   "note": "Termination needs the hash to find an acceptable block (HashTotal)."
  },
  {
   "property": "C19",
   "status": "proved",
   "theorems": [
    "Verif.C19",
    "Verif.C19_run"
   ],
   "note": ""
  },
  {
   "property": "C20",
   "status": "proved",
   "theorems": [
    "Verif.C20"
   ],
   "note": ""
  },
  {
   "property": "C21",
   "status": "partial",
   "theorems": [
    "Verif.C21_forge",
    "Verif.C21_zero",
    "Verif.C21_false",
    "Verif.C21_partial"
   ],
   "note": "False of the code: C21_false, C21_forge (one scalar for all parties, only the sum of encryptions matters). Proved part: the summed equation holds unless the drawn scalar is zero. With the check of every slot that is commented out at aggregator.rs:166-180 the claim holds (C114)."
  },
  {
   "property": "C22",
   "status": "proved",
   "theorems": [
    "Verif.C22"
   ],
   "note": ""
  },
  {
   "property": "C23",
   "status": "proved",
   "theorems": [
    "Verif.C23"
   ],
   "note": ""
  },
  {
   "property": "C24",
   "status": "proved",
   "theorems": [
    "Verif.C24"
   ],
   "note": ""
  },
  {
   "property": "C25",
   "status": "proved",
   "theorems": [
    "Verif.C25"
   ],
   "note": ""
  },
  {
   "property": "C26",
   "status": "proved",
   "theorems": [
    "Verif.C26",
    "Verif.C26_perm"
   ],
   "note": ""
  },
  {
   "property": "C27",
   "status": "proved",
   "theorems": [
    "Verif.C27",
    "Verif.C27_perm"
   ],
   "note": ""
  },
  {
   "property": "C28",
   "status": "proved",
   "theorems": [
    "Verif.C28",
    "Verif.C28_fresh"
   ],
   "note": ""
  },
  {
   "property": "C29",
   "status": "proved",
   "theorems": [
    "Verif.C29_share",
    "Verif.C29_agg"
   ],
   "note": ""
  },
  {
   "property": "C30",
   "status": "proved",
   "theorems": [
    "Verif.C30",
    "Verif.C30_conv"
   ],
   "note": ""
  },
  {
   "property": "C31",
   "status": "proved",
   "theorems": [
    "Verif.C31"
   ],
   "note": "Overflow checks on, as stated; C62_wrap shows that the last clause fails without them."
  },
  {
   "property": "C32",
   "status": "proved",
   "theorems": [
    "Verif.C32",
    "Verif.C32_run",
    "Verif.C32_node"
   ],
   "note": ""
  },
  {
   "property": "C33",
   "status": "partial",
   "theorems": [
    "Verif.C33_decides",
    "Verif.C33_poison",
    "Verif.C33_partial",
    "Verif.C33_false"
   ],
   "note": "False of the code: C33_false, C33_poison; C33_decides says exactly what decides acceptance. Proved part: histories whose accepted inputs have correct content. With the check of every slot that is commented out at aggregator.rs:166-180 the claim holds up to the error k/r of the degree test (C114)."
  },
  {
   "property": "C34",
   "status": "proved",
   "theorems": [
    "Verif.C34_weight",
    "Verif.C34_modes",
    "Verif.C34_checked",
    "Verif.C34_lost",
    "Verif.C34_exact",
    "Verif.C34_broken"
   ],
   "note": "C34_exact: a transcript merged with overflow is refused by every peer exactly when the lost weights do not cancel; C34_broken is the case of one contributor."
  },
  {
   "property": "C35",
   "status": "partial",
   "theorems": [
    "Verif.C35_drop",
    "Verif.C35_false",
    "Verif.C35_partial",
    "Verif.C35_poison",
    "Verif.C35_reachable"
   ],
   "note": "False of the code: C35_false, C35_drop (ids at or above num_participants disappear), C35_poison (consequence for peers), C35_reachable. Proved part: all ids below num_participants are kept. With three tests on the contributions of a received transcript the claim holds: C118."
  },
  {
   "property": "C36",
   "status": "proved",
   "theorems": [
    "Verif.C36",
    "Verif.C36_total"
   ],
   "note": ""
  },
  {
   "property": "C37",
   "status": "proved",
   "theorems": [
    "Verif.C37",
    "Verif.C37_unique"
   ],
   "note": ""
  },
  {
   "property": "C38",
   "status": "partial",
   "theorems": [
    "Verif.C38_forge",
    "Verif.C38_false",
    "Verif.C38_partial"
   ],
   "note": "False of the code: C38_forge, C38_false (the statement is not hashed). Proved part: for a statement fixed in advance and without discrete logarithm at most one challenge is accepting. With the statement hashed the claim holds: C117."
  },
  {
   "property": "C39",
   "status": "proved",
   "theorems": [
    "Verif.C39",
    "Verif.C39_challenge",
    "Verif.C39_response",
    "Verif.C39_statement"
   ],
   "note": ""
  },
  {
   "property": "C40",
   "status": "proved",
   "theorems": [
    "Verif.C40",
    "Verif.C40_total"
   ],
   "note": ""
  },
  {
   "property": "C41",
   "status": "proved",
   "theorems": [
    "Verif.C41",
    "Verif.C41_unique",
    "Verif.C41_binding"
   ],
   "note": ""
  },
  {
   "property": "C42",
   "status": "proved",
   "theorems": [
    "Verif.C42",
    "Verif.C42_challenge",
    "Verif.C42_response"
   ],
   "note": ""
  },
  {
   "property": "C43",
   "status": "proved",
   "theorems": [
    "Verif.C43",
    "Verif.C43_total",
    "Verif.C43_err",
    "Verif.C43_digest"
   ],
   "note": ""
  },
  {
   "property": "C44",
   "status": "proved",
   "theorems": [
    "Verif.C44",
    "Verif.C44_total"
   ],
   "note": ""
  },
  {
   "property": "C45",
   "status": "proved",
   "theorems": [
    "Verif.C45",
    "Verif.C45_nonce_reuse",
    "Verif.C45_key_unique",
    "Verif.C45_response_unique"
   ],
   "note": ""
  },
  {
   "property": "C46",
   "status": "partial",
   "theorems": [
    "Verif.C46_forge",
    "Verif.C46_false",
    "Verif.C46_partial"
   ],
   "note": "False of the code: C46_forge, C46_false (the public key is not hashed). Proved part: one signature and message determine the key. With the key hashed the claim holds: C117."
  },
  {
   "property": "C47",
   "status": "proved",
   "theorems": [
    "Verif.C47",
    "Verif.C47_empty",
    "Verif.C47_one"
   ],
   "note": ""
  },
  {
   "property": "C48",
   "status": "proved",
   "theorems": [
    "Verif.C48"
   ],
   "note": ""
  },
  {
   "property": "C49",
   "status": "proved",
   "theorems": [
    "Verif.C49"
   ],
   "note": ""
  },
  {
   "property": "C50",
   "status": "proved",
   "theorems": [
    "Verif.C50_schnorr",
    "Verif.C50_dleq",
    "Verif.C50_dlk",
    "Verif.C50_verify",
    "Verif.C50_prove",
    "Verif.C50_personas"
   ],
   "note": ""
  },
  {
   "property": "C51",
   "status": "proved",
   "theorems": [
    "Verif.C51_field",
    "Verif.C51_deterministic",
    "Verif.C51_group",
    "Verif.C51_subgroup"
   ],
   "note": ""
  },
  {
   "property": "C52",
   "status": "proved",
   "theorems": [
    "Verif.C52_srs",
    "Verif.C52_config",
    "Verif.C52_participant",
    "Verif.C52_core",
    "Verif.C52_decompProof",
    "Verif.C52_signedProof",
    "Verif.C52_pvssShare",
    "Verif.C52_aggShare",
    "Verif.C52_eddsa"
   ],
   "note": ""
  },
  {
   "property": "C53",
   "status": "proved",
   "theorems": [
    "Verif.C53"
   ],
   "note": ""
  },
  {
   "property": "C54",
   "status": "proved",
   "theorems": [
    "Verif.C54_short",
    "Verif.C54_long"
   ],
   "note": ""
  },
  {
   "property": "C55",
   "status": "partial",
   "theorems": [
    "Verif.C55_bls_partial",
    "Verif.C55_infinity",
    "Verif.C55_bls_false",
    "Verif.C55_dup",
    "Verif.C55_false",
    "Verif.C55_points_partial",
    "Verif.C55_partial"
   ],
   "note": "False of the code: C55_dup, C55_false (repeated or unsorted map keys are accepted) and, at BLS12-381, C55_bls_false (infinity may be written with any x). Proved part: C55_points_partial, C55_bls_partial: all types without a map are canonical at values without infinity, and transcripts are canonical when moreover the keys are strictly increasing. With three tests when reading the claim holds: C123."
  },
  {
   "property": "C56",
   "status": "proved",
   "theorems": [
    "Verif.C56_roundtrip",
    "Verif.C56_public",
    "Verif.C56_secret"
   ],
   "note": ""
  },
  {
   "property": "C57",
   "status": "proved",
   "theorems": [
    "Verif.C57_display",
    "Verif.C57_collision",
    "Verif.C57_debug"
   ],
   "note": ""
  },
  {
   "property": "C58",
   "status": "proved",
   "theorems": [
    "Verif.C58_sign",
    "Verif.C58_split",
    "Verif.C58_verify",
    "Verif.C58_batch"
   ],
   "note": ""
  },
  {
   "property": "C59",
   "status": "proved",
   "theorems": [
    "Verif.C59",
    "Verif.C59_share",
    "Verif.C59_zero"
   ],
   "note": "Perfect secrecy of p(0) given t decrypted shares as a counting statement; published commitments p(i)*g2 hide p(0) only computationally; see C95 for the reduction."
  },
  {
   "property": "C60",
   "status": "proved",
   "theorems": [
    "Verif.C60"
   ],
   "note": ""
  },
  {
   "property": "C61",
   "status": "proved",
   "theorems": [
    "Verif.C61_prime",
    "Verif.C61_size",
    "Verif.C61_injective"
   ],
   "note": ""
  },
  {
   "property": "C62",
   "status": "partial",
   "theorems": [
    "Verif.C62_partial",
    "Verif.C62_accept",
    "Verif.C62_lockout",
    "Verif.C62_wrap",
    "Verif.C62_false"
   ],
   "note": "False of the code: C62_false, C62_accept + C62_lockout (overflow checks on: the dealer is locked out), C62_wrap (off: the transcript is spoilt). Proved part: holds while the recorded weight is below 2^64-1. With three tests on the contributions of a received transcript the claim holds: C118."
  },
  {
   "property": "C63",
   "status": "partial",
   "theorems": [
    "Verif.C63_partial",
    "Verif.C63_phantom",
    "Verif.C63_false"
   ],
   "note": "False of the code: C63_false, C63_phantom. Proved part: listed contributors are registered with valid signed proofs, and weights stay positive as long as received transcripts have positive weights. With three tests on the contributions of a received transcript the claim holds: C118."
  },
  {
   "property": "C64",
   "status": "proved",
   "theorems": [
    "Verif.C64_pairs",
    "Verif.C64_injective",
    "Verif.C64_setup",
    "Verif.C64_generators"
   ],
   "note": ""
  },
  {
   "property": "C65",
   "status": "proved",
   "theorems": [
    "Verif.C65_layout",
    "Verif.C65_size",
    "Verif.C65_bls"
   ],
   "note": ""
  },
  {
   "property": "C66",
   "status": "proved",
   "theorems": [
    "Verif.C66_drop",
    "Verif.C66_debug"
   ],
   "note": ""
  },
  {
   "property": "C67",
   "status": "proved",
   "theorems": [
    "Verif.C67"
   ],
   "note": ""
  },
  {
   "property": "C68",
   "status": "proved",
   "theorems": [
    "Verif.C68"
   ],
   "note": ""
  },
  {
   "property": "C69",
   "status": "proved",
   "theorems": [
    "Verif.C69_dlk",
    "Verif.C69_dleq",
    "Verif.C69_schnorr"
   ],
   "note": ""
  },
  {
   "property": "C70",
   "status": "proved",
   "theorems": [
    "Verif.C70"
   ],
   "note": ""
  },
  {
   "property": "C71",
   "status": "proved",
   "theorems": [
    "Verif.C71"
   ],
   "note": ""
  },
  {
   "property": "C72",
   "status": "proved",
   "theorems": [
    "Verif.C72_share",
    "Verif.C72_agg"
   ],
   "note": ""
  },
  {
   "property": "C73",
   "status": "proved",
   "theorems": [
    "Verif.C73",
    "Verif.C73_large",
    "Verif.C73_contents"
   ],
   "note": ""
  },
  {
   "property": "C74",
   "status": "partial",
   "theorems": [
    "Verif.C74_replay",
    "Verif.C74_replay_agg",
    "Verif.C74_threshold",
    "Verif.C74_partial",
    "Verif.C74_false"
   ],
   "note": "False of the code: C74_false, C74_replay, C74_replay_agg (only n, t, g2 and the sender's entry matter), C74_threshold. Proved part: n, the sender's registration and (up to hash collisions) g2 are bound. With session, dealer and statement in the hashes and the whole share signed the claim holds up to forgeries and collisions: C121."
  },
  {
   "property": "C75",
   "status": "partial",
   "theorems": [
    "Verif.C75_copy",
    "Verif.C75_related",
    "Verif.C75_false",
    "Verif.C75_partial"
   ],
   "note": "False of the code: C75_false, C75_copy (verbatim copy under another signature), C75_related (affine function of the victim's polynomial). Proved part: the new dealer's signature on the proof is required. With session, dealer and statement in the challenge, copies and related contributions yield the logarithm: C121."
  },
  {
   "property": "C76",
   "status": "partial",
   "theorems": [
    "Verif.C76_cancel",
    "Verif.C76_false",
    "Verif.C76_partial"
   ],
   "note": "False of the code: C76_false (strategy with secret always zero), C76_cancel (general form). Proved part: uniform when the rest of the transcript is fixed before the honest dealer draws. With the statement hashed, a winning strategy yields the logarithm of the honest gs: C120."
  },
  {
   "property": "C77",
   "status": "proved",
   "theorems": [
    "Verif.C77_encode",
    "Verif.C77_positions",
    "Verif.C77_decode",
    "Verif.C77_texts"
   ],
   "note": ""
  },
  {
   "property": "C78",
   "status": "proved",
   "theorems": [
    "Verif.C78",
    "Verif.C78_order",
    "Verif.C78_verdict",
    "Verif.C78_equivocation"
   ],
   "note": ""
  },
  {
   "property": "C79",
   "status": "proved",
   "theorems": [
    "Verif.C79",
    "Verif.C79_agree",
    "Verif.C79_accepted"
   ],
   "note": ""
  },
  {
   "property": "C80",
   "status": "partial",
   "theorems": [
    "Verif.C80_attack",
    "Verif.C80_partial",
    "Verif.C80_false"
   ],
   "note": "False of the code: C80_false, C80_attack (one replaced encryption in an accepted share; consequence of C16 and C21). Proved part: the contributors' secret is reconstructed if the slots of the selected parties are correct encryptions. With the check of every slot that is commented out at aggregator.rs:166-180 the claim holds up to the error k/r of the degree test (C114)."
  },
  {
   "property": "C81",
   "status": "proved",
   "theorems": [
    "Verif.C81",
    "Verif.C81_secret"
   ],
   "note": ""
  },
  {
   "property": "C82",
   "status": "partial",
   "theorems": [
    "Verif.C82_bls",
    "Verif.C82_partial",
    "Verif.C82_panic",
    "Verif.C82_truncated",
    "Verif.C82_prefix",
    "Verif.C82_false",
    "Verif.C82_transcript"
   ],
   "note": "False of the code: C82_false, C82_truncated, C82_panic, C82_transcript (exactly the inputs ending inside a key or signature panic). Proved part: the types without EdDSA fields decode or report an error, and no decoder loops; C82_prefix: incomplete messages are never accepted. C82_bls: the assumptions on point decoders hold at BLS12-381. With three tests when reading the claim holds: C123."
  },
  {
   "property": "C83",
   "status": "proved",
   "theorems": [
    "Verif.C83",
    "Verif.C83_agree",
    "Verif.C83_outcome"
   ],
   "note": ""
  },
  {
   "property": "C84",
   "status": "partial",
   "theorems": [
    "Verif.C84_partial",
    "Verif.C84_panic",
    "Verif.C84_wrap",
    "Verif.C84_false"
   ],
   "note": "False of the code: C84_false, C84_panic (one share and 46 exchanges between two honest nodes take the weights to Fibonacci numbers beyond which every further exchange panics), C84_wrap (without overflow checks the next exchange leaves a transcript that all peers refuse). Proved part: s deliveries of shares and g of transcripts succeed, in every build mode, as long as s * 2^g < 2^64. With the tests of C118 nothing fails, in every build mode, but transcripts that would take a weight beyond 2^63 are refused."
  },
  {
   "property": "C85",
   "status": "proved",
   "theorems": [
    "Verif.C85_count",
    "Verif.C85_share",
    "Verif.C85_setting",
    "Verif.C85",
    "Verif.C85_agree",
    "Verif.C85_limit"
   ],
   "note": ""
  },
  {
   "property": "C86",
   "status": "proved",
   "theorems": [
    "Verif.C86"
   ],
   "note": ""
  },
  {
   "property": "C87",
   "status": "proved",
   "theorems": [
    "Verif.C87_share",
    "Verif.C87_agg",
    "Verif.C87_merge",
    "Verif.C87_batch"
   ],
   "note": ""
  },
  {
   "property": "C88",
   "status": "partial",
   "theorems": [
    "Verif.C88_template",
    "Verif.C88_label_false",
    "Verif.C88_empty_false",
    "Verif.C88_text_partial",
    "Verif.C88_core_partial",
    "Verif.C88_tx_partial"
   ],
   "note": "False of the code: C88_label_false (the size of the other transcript is printed as self.num_participants), C88_empty_false (cores with encryptions but without commitments are refused with \"Share's encryptions vector is empty\"). Proved part: texts determine errors including all numbers (C88_text_partial), and the texts of core and transcript aggregation are true apart from these two (C88_core_partial, C88_tx_partial). With these two texts corrected the claim holds: C133."
  },
  {
   "property": "C89",
   "status": "proved",
   "theorems": [
    "Verif.C89_add",
    "Verif.C89_neg",
    "Verif.C89_det",
    "Verif.C89_bind",
    "Verif.C89_codeword",
    "Verif.C89"
   ],
   "note": ""
  },
  {
   "property": "C90",
   "status": "proved",
   "theorems": [
    "Verif.C90"
   ],
   "note": ""
  },
  {
   "property": "C91",
   "status": "proved",
   "theorems": [
    "Verif.C91_origin",
    "Verif.C91",
    "Verif.C91_secret"
   ],
   "note": ""
  },
  {
   "property": "C92",
   "status": "proved",
   "theorems": [
    "Verif.C92",
    "Verif.C92_group"
   ],
   "note": ""
  },
  {
   "property": "C93",
   "status": "proved",
   "theorems": [
    "Verif.C93",
    "Verif.C93_schnorr",
    "Verif.C93_sound"
   ],
   "note": ""
  },
  {
   "property": "C94",
   "status": "proved",
   "theorems": [
    "Verif.C94",
    "Verif.C94_extract"
   ],
   "note": ""
  },
  {
   "property": "C95",
   "status": "proved",
   "theorems": [
    "Verif.C95",
    "Verif.C95_exact",
    "Verif.C95_predict",
    "Verif.C95_decide"
   ],
   "note": ""
  },
  {
   "property": "C96",
   "status": "proved",
   "theorems": [
    "Verif.C96_groups",
    "Verif.C96_pair",
    "Verif.C96_pair_exists",
    "Verif.C96_codec",
    "Verif.C96_canonical",
    "Verif.C96_infinity",
    "Verif.C96_not_canonical",
    "Verif.C96_scalar",
    "Verif.C96_hash",
    "Verif.C96"
   ],
   "note": ""
  },
  {
   "property": "C97",
   "status": "proved",
   "theorems": [
    "Verif.C97_verify",
    "Verif.C97_unique",
    "Verif.C97"
   ],
   "note": ""
  },
  {
   "property": "C98",
   "status": "partial",
   "theorems": [
    "Verif.C98_lengths",
    "Verif.C98_identity",
    "Verif.C98_false",
    "Verif.C98_single",
    "Verif.C98_partial",
    "Verif.C98_honest"
   ],
   "note": "False of the code (of ed25519-dalek 1.0.1, which lib.rs calls): C98_false, C98_identity (the vote R = A = 0, s = 0 passes verify_batch for every digest while verify refuses it), C98_single (a vote accepted by verify passes batch verification with weight z iff floor(k z / l) times the small-order part of the key vanishes; the example has a refused one). Proved part: honest votes always pass (C98_honest); for votes whose points are non-zero multiples of the base point, valid batches pass and invalid ones pass for at most a 2^-128 fraction of the weights (C98_partial). With equations multiplied by the cofactor and points of small order refused the claim holds, but for that fraction: C124."
  },
  {
   "property": "C99",
   "status": "proved",
   "theorems": [
    "Verif.C99"
   ],
   "note": ""
  },
  {
   "property": "C100",
   "status": "proved",
   "theorems": [
    "Verif.C100",
    "Verif.C100_curve",
    "Verif.C100_add",
    "Verif.C100_canonical",
    "Verif.C100_deploy"
   ],
   "note": ""
  },
  {
   "property": "C101",
   "status": "proved",
   "theorems": [
    "Verif.C101_dlk_simple",
    "Verif.C101_dlk_wrong_statement",
    "Verif.C101_dlk_commitment",
    "Verif.C101_dlk_challenge",
    "Verif.C101_dlk_response",
    "Verif.C101_dlk_serialization",
    "Verif.C101_dleq_simple",
    "Verif.C101_dleq_benchmark",
    "Verif.C101_dleq_wrong_statement",
    "Verif.C101_dleq_commitment",
    "Verif.C101_dleq_challenge",
    "Verif.C101_dleq_response",
    "Verif.C101_dleq_serialization",
    "Verif.C101_schnorr_simple",
    "Verif.C101_schnorr_wrong_pk",
    "Verif.C101_schnorr_wrong_message",
    "Verif.C101_schnorr_batch",
    "Verif.C101_schnorr_serialization",
    "Verif.C101_share_signed",
    "Verif.C101_share_empty",
    "Verif.C101_share_create",
    "Verif.C101_share_one",
    "Verif.C101_share_two",
    "Verif.C101_share_serialization",
    "Verif.C101_share_agg_serialization",
    "Verif.C101_node_one",
    "Verif.C101_node_four",
    "Verif.C101_node_double",
    "Verif.C101_decomp_simple",
    "Verif.C101_decomp_invalid",
    "Verif.C101_decomp_serialization",
    "Verif.C101_pvss_empty",
    "Verif.C101_pvss_neq",
    "Verif.C101_pvss_aggregation",
    "Verif.C101_pvss_mismatch",
    "Verif.C101_pvss_serialization",
    "Verif.C101_poly_sample",
    "Verif.C101_poly_degree",
    "Verif.C101_poly_insufficient",
    "Verif.C101_poly_simple",
    "Verif.C101_poly_g2",
    "Verif.C101_poly_gt",
    "Verif.C101_poly_sets"
   ],
   "note": ""
  },
  {
   "property": "C102",
   "status": "proved",
   "theorems": [
    "Verif.C102_order",
    "Verif.C102_subgroup",
    "Verif.C102_read",
    "Verif.C102_points",
    "Verif.C102_uniform",
    "Verif.C102"
   ],
   "note": ""
  },
  {
   "property": "C103",
   "status": "proved",
   "theorems": [
    "Verif.C103_scalar",
    "Verif.C103_draws",
    "Verif.C103_point",
    "Verif.C103_srs"
   ],
   "note": ""
  },
  {
   "property": "C104",
   "status": "proved",
   "theorems": [
    "Verif.C104_degree",
    "Verif.C104_attack",
    "Verif.C104_batch",
    "Verif.C104_deploy",
    "Verif.C104_secrecy",
    "Verif.C104_tampered",
    "Verif.C104_dealing"
   ],
   "note": ""
  },
  {
   "property": "C105",
   "status": "proved",
   "theorems": [
    "Verif.C105_share",
    "Verif.C105_aggregated",
    "Verif.C105_verify",
    "Verif.C105_prove",
    "Verif.C105_batch",
    "Verif.C105_deal",
    "Verif.C105_aggregated_needed"
   ],
   "note": ""
  },
  {
   "property": "C106",
   "status": "proved",
   "theorems": [
    "Verif.C106_bounded",
    "Verif.C106_permanent"
   ],
   "note": ""
  },
  {
   "property": "C107",
   "status": "proved",
   "theorems": [
    "Verif.C107_sound",
    "Verif.C107_complete",
    "Verif.C107_slots"
   ],
   "note": ""
  },
  {
   "property": "C108",
   "status": "proved",
   "theorems": [
    "Verif.C108_bytes",
    "Verif.C108_key",
    "Verif.C108_verify",
    "Verif.C108_owner",
    "Verif.C108_batch",
    "Verif.C108_order"
   ],
   "note": ""
  },
  {
   "property": "C109",
   "status": "proved",
   "theorems": [
    "Verif.C109",
    "Verif.C109_use"
   ],
   "note": ""
  },
  {
   "property": "C110",
   "status": "proved",
   "theorems": [
    "Verif.C110",
    "Verif.C110_extract"
   ],
   "note": ""
  },
  {
   "property": "C111",
   "status": "proved",
   "theorems": [
    "Verif.C111_formats",
    "Verif.C111_layout",
    "Verif.C111_hash",
    "Verif.C111_bls"
   ],
   "note": ""
  },
  {
   "property": "C112",
   "status": "proved",
   "theorems": [
    "Verif.C112_g1_write",
    "Verif.C112_g2_write",
    "Verif.C112_g1_read",
    "Verif.C112_g2_read",
    "Verif.C112_scalar",
    "Verif.C112_generator",
    "Verif.C112_generator2"
   ],
   "note": ""
  },
  {
   "property": "C113",
   "status": "proved",
   "theorems": [
    "Verif.C113",
    "Verif.C113_agreement",
    "Verif.C113_bls"
   ],
   "note": ""
  },
  {
   "property": "C114",
   "status": "proved",
   "theorems": [
    "Verif.C114",
    "Verif.C114_honest",
    "Verif.C114_attack",
    "Verif.C114_bls"
   ],
   "note": ""
  },
  {
   "property": "C115",
   "status": "proved",
   "theorems": [
    "Verif.C115_clamp",
    "Verif.C115_eddsa",
    "Verif.C115_epoch",
    "Verif.C115_test",
    "Verif.C115_blake",
    "Verif.C115_loops",
    "Verif.C115_counter",
    "Verif.C115_sha",
    "Verif.C115_answers",
    "Verif.C115_shake",
    "Verif.C115_signed",
    "Verif.C115_blocks"
   ],
   "note": ""
  },
  {
   "property": "C116",
   "status": "proved",
   "theorems": [
    "Verif.C116_group",
    "Verif.C116_small",
    "Verif.C116_keys",
    "Verif.C116_verify",
    "Verif.C116_batch",
    "Verif.C116_reject"
   ],
   "note": ""
  },
  {
   "property": "C117",
   "status": "proved",
   "theorems": [
    "Verif.C117_complete",
    "Verif.C117_dlk",
    "Verif.C117_sound",
    "Verif.C117_key"
   ],
   "note": ""
  },
  {
   "property": "C118",
   "status": "proved",
   "theorems": [
    "Verif.C118",
    "Verif.C118_merge",
    "Verif.C118_share",
    "Verif.C118_network",
    "Verif.C118_same",
    "Verif.C118_limit"
   ],
   "note": ""
  },
  {
   "property": "C119",
   "status": "proved",
   "theorems": [
    "Verif.C119_meaning",
    "Verif.C119_products",
    "Verif.C119",
    "Verif.C119_values",
    "Verif.C119_bls"
   ],
   "note": ""
  },
  {
   "property": "C120",
   "status": "proved",
   "theorems": [
    "Verif.C120_honest",
    "Verif.C120_simulated",
    "Verif.C120",
    "Verif.C120_log",
    "Verif.C120_predetermined"
   ],
   "note": ""
  },
  {
   "property": "C121",
   "status": "proved",
   "theorems": [
    "Verif.C121_share",
    "Verif.C121_entry",
    "Verif.C121_deal",
    "Verif.C121_honest",
    "Verif.C121_copy"
   ],
   "note": ""
  },
  {
   "property": "C122",
   "status": "proved",
   "theorems": [
    "Verif.C122_knowledge",
    "Verif.C122_table",
    "Verif.C122_dleq",
    "Verif.C122_dlk",
    "Verif.C122_schnorr"
   ],
   "note": ""
  },
  {
   "property": "C123",
   "status": "proved",
   "theorems": [
    "Verif.C123",
    "Verif.C123_compatible",
    "Verif.C123_refused",
    "Verif.C123_bls"
   ],
   "note": ""
  },
  {
   "property": "C124",
   "status": "proved",
   "theorems": [
    "Verif.C124_verify",
    "Verif.C124_complete",
    "Verif.C124_sound"
   ],
   "note": ""
  },
  {
   "property": "C125",
   "status": "proved",
   "theorems": [
    "Verif.C125",
    "Verif.C125_wire",
    "Verif.C125_lasting",
    "Verif.C125_attack",
    "Verif.C125_honest",
    "Verif.C125_share",
    "Verif.C125_exchange",
    "Verif.C125_network",
    "Verif.C125_bls"
   ],
   "note": ""
  },
  {
   "property": "C126",
   "status": "proved",
   "theorems": [
    "Verif.C126",
    "Verif.C126_tests",
    "Verif.C126_repr",
    "Verif.C126_normalization",
    "Verif.C126_msm",
    "Verif.C126_field",
    "Verif.C126_bls"
   ],
   "note": ""
  },
  {
   "property": "C127",
   "status": "proved",
   "theorems": [
    "Verif.C127_deal",
    "Verif.C127_simulation",
    "Verif.C127_extract",
    "Verif.C127"
   ],
   "note": ""
  },
  {
   "property": "C128",
   "status": "proved",
   "theorems": [
    "Verif.C128",
    "Verif.C128_expr",
    "Verif.C128_bls"
   ],
   "note": ""
  },
  {
   "property": "C129",
   "status": "proved",
   "theorems": [
    "Verif.C129",
    "Verif.C129_storage",
    "Verif.C129_bls"
   ],
   "note": ""
  },
  {
   "property": "C130",
   "status": "proved",
   "theorems": [
    "Verif.C130_points",
    "Verif.C130_entries",
    "Verif.C130_digits",
    "Verif.C130_mul",
    "Verif.C130"
   ],
   "note": ""
  },
  {
   "property": "C131",
   "status": "proved",
   "theorems": [
    "Verif.C131_field",
    "Verif.C131_points",
    "Verif.C131"
   ],
   "note": ""
  },
  {
   "property": "C132",
   "status": "proved",
   "theorems": [
    "Verif.C132_scalar",
    "Verif.C132"
   ],
   "note": ""
  },
  {
   "property": "C133",
   "status": "proved",
   "theorems": [
    "Verif.C133_label",
    "Verif.C133_core",
    "Verif.C133_text"
   ],
   "note": ""
  }
 ]
}