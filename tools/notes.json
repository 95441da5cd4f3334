{
 "C03": "n = t+1 is covered only for Mode.wrapping (see DESIGN, build modes); num_participants < 2^58 (allocation limit of the coefficient vector).",
 "C12": "Length below 2^58: above it the coefficient vector cannot be allocated.",
 "C13": "n >= t+2; the boundary cases are C14.",
 "C14": "Three build modes; the release behaviour at n = degree+1 depends on a dependency whose source is not in /repo, both forms are proved.",
 "C15": "Iff for n >= t+2; C15_boundary shows that below that only Mode.wrapping with n = t+1 can accept.",
 "C16": "False of the code: C16_false (concrete witness), C16_forge (every accepted share can be altered). Proved part: the sender's own encryption is correct. With the check of every slot that is commented out at aggregator.rs:166-180 the claim holds (C114).",
 "C17": "False of the code: C17_false, C17_maul (public re-randomisation keeping the signed proof). Proved part: both shares commit to the signed gs. With session, dealer and statement in the hashes and the whole share signed the claim holds up to forgeries and collisions: C121.",
 "C18": "Termination needs the hash to find an acceptable block (HashTotal).",
 "C21": "False of the code: C21_false, C21_forge (one scalar for all parties, only the sum of encryptions matters). Proved part: the summed equation holds unless the drawn scalar is zero. With the check of every slot that is commented out at aggregator.rs:166-180 the claim holds (C114).",
 "C31": "Overflow checks on, as stated; C62_wrap shows that the last clause fails without them.",
 "C33": "False of the code: C33_false, C33_poison; C33_decides says exactly what decides acceptance. Proved part: histories whose accepted inputs have correct content. With the check of every slot that is commented out at aggregator.rs:166-180 the claim holds up to the error k/r of the degree test (C114).",
 "C34": "C34_exact: a transcript merged with overflow is refused by every peer exactly when the lost weights do not cancel; C34_broken is the case of one contributor.",
 "C35": "False of the code: C35_false, C35_drop (ids at or above num_participants disappear), C35_poison (consequence for peers), C35_reachable. Proved part: all ids below num_participants are kept. With three tests on the contributions of a received transcript the claim holds: C118.",
 "C38": "False of the code: C38_forge, C38_false (the statement is not hashed). Proved part: for a statement fixed in advance and without discrete logarithm at most one challenge is accepting. With the statement hashed the claim holds: C117.",
 "C46": "False of the code: C46_forge, C46_false (the public key is not hashed). Proved part: one signature and message determine the key. With the key hashed the claim holds: C117.",
 "C55": "False of the code: C55_dup, C55_false (repeated or unsorted map keys are accepted) and, at BLS12-381, C55_bls_false (infinity may be written with any x). Proved part: C55_points_partial, C55_bls_partial: all types without a map are canonical at values without infinity, and transcripts are canonical when moreover the keys are strictly increasing. With three tests when reading the claim holds: C123.",
 "C59": "Perfect secrecy of p(0) given t decrypted shares as a counting statement; published commitments p(i)*g2 hide p(0) only computationally; see C95 for the reduction.",
 "C62": "False of the code: C62_false, C62_accept + C62_lockout (overflow checks on: the dealer is locked out), C62_wrap (off: the transcript is spoilt). Proved part: holds while the recorded weight is below 2^64-1. With three tests on the contributions of a received transcript the claim holds: C118.",
 "C63": "False of the code: C63_false, C63_phantom. Proved part: listed contributors are registered with valid signed proofs, and weights stay positive as long as received transcripts have positive weights. With three tests on the contributions of a received transcript the claim holds: C118.",
 "C74": "False of the code: C74_false, C74_replay, C74_replay_agg (only n, t, g2 and the sender's entry matter), C74_threshold. Proved part: n, the sender's registration and (up to hash collisions) g2 are bound. With session, dealer and statement in the hashes and the whole share signed the claim holds up to forgeries and collisions: C121.",
 "C75": "False of the code: C75_false, C75_copy (verbatim copy under another signature), C75_related (affine function of the victim's polynomial). Proved part: the new dealer's signature on the proof is required. With session, dealer and statement in the challenge, copies and related contributions yield the logarithm: C121.",
 "C76": "False of the code: C76_false (strategy with secret always zero), C76_cancel (general form). Proved part: uniform when the rest of the transcript is fixed before the honest dealer draws. With the statement hashed, a winning strategy yields the logarithm of the honest gs: C120.",
 "C80": "False of the code: C80_false, C80_attack (one replaced encryption in an accepted share; consequence of C16 and C21). Proved part: the contributors' secret is reconstructed if the slots of the selected parties are correct encryptions. With the check of every slot that is commented out at aggregator.rs:166-180 the claim holds up to the error k/r of the degree test (C114).",
 "C82": "False of the code: C82_false, C82_truncated, C82_panic, C82_transcript (exactly the inputs ending inside a key or signature panic). Proved part: the types without EdDSA fields decode or report an error, and no decoder loops; C82_prefix: incomplete messages are never accepted. C82_bls: the assumptions on point decoders hold at BLS12-381. With three tests when reading the claim holds: C123.",
 "C84": "False of the code: C84_false, C84_panic (one share and 46 exchanges between two honest nodes take the weights to Fibonacci numbers beyond which every further exchange panics), C84_wrap (without overflow checks the next exchange leaves a transcript that all peers refuse). Proved part: s deliveries of shares and g of transcripts succeed, in every build mode, as long as s * 2^g < 2^64. With the tests of C118 nothing fails, in every build mode, but transcripts that would take a weight beyond 2^63 are refused.",
 "C88": "False of the code: C88_label_false (the size of the other transcript is printed as self.num_participants), C88_empty_false (cores with encryptions but without commitments are refused with \"Share's encryptions vector is empty\"). Proved part: texts determine errors including all numbers (C88_text_partial), and the texts of core and transcript aggregation are true apart from these two (C88_core_partial, C88_tx_partial). With these two texts corrected the claim holds: C133.",
 "C98": "False of the code (of ed25519-dalek 1.0.1, which lib.rs calls): C98_false, C98_identity (the vote R = A = 0, s = 0 passes verify_batch for every digest while verify refuses it), C98_single (a vote accepted by verify passes batch verification with weight z iff floor(k z / l) times the small-order part of the key vanishes; the example has a refused one). Proved part: honest votes always pass (C98_honest); for votes whose points are non-zero multiples of the base point, valid batches pass and invalid ones pass for at most a 2^-128 fraction of the weights (C98_partial). With equations multiplied by the cofactor and points of small order refused the claim holds, but for that fraction: C124."
}