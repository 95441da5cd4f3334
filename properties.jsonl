{"id": "C01", "title": "Shape of an honest sharing", "statement": "When Node::share_pvss returns Ok, there is one polynomial p over the scalar field of degree at most config.degree such that comms[i] = p(i+1)*g2 and encs[i] = p(i+1)*pk_i for every i < num_participants (pk_i being participant i's public_key_sig), both vectors have exactly num_participants entries, p_0 = p(0), and my_secret = p(id+1)*g1 for the dealer's id.", "quantifier": "all configurations, participant maps, dealers and all random streams", "why_tests_cant": "tests sample one (n,t) and one RNG seed; the claim is about every size and every draw", "anchors": ["src/modified_scrape/node.rs: Node::share_pvss", "src/modified_scrape/poly.rs: Polynomial"]}
{"id": "C02", "title": "Exactly when dealing succeeds", "statement": "Node::share_pvss returns Ok exactly when num_participants >= 1, every id in 0..n-1 has a participant entry, the dealer's id is < n and the sampled coefficients are not all zero; if some id is missing it returns Err(InvalidParticipantId(first missing id)); n = 0, a dealer id >= n and an all-zero sample make it panic.", "quantifier": "all configurations, participant maps, dealer ids and random streams, both overflow-check modes", "why_tests_cant": "the failing draws have negligible probability and the boundary configurations are endless", "anchors": ["src/modified_scrape/node.rs: Node::share_pvss"]}
{"id": "C03", "title": "Honest shares are always accepted", "statement": "If a correctly set-up node produces a share (Node::share returns Ok), then receive_share on any aggregator with the same configuration and participant table, whose transcript is compatible (no earlier contribution of that dealer with another gs, no weight overflow), returns Ok, whatever random values the dealer and the verifier draw.", "quantifier": "all n >= t+2 (also n = t+1 in builds without overflow checks, if the polynomial sampler of the dependency wraps on degree 2^64-1 instead of failing to allocate), all keys, dealers, random streams of dealer and verifier, all compatible aggregator states", "why_tests_cant": "acceptance must hold for every random challenge polynomial the verifier can draw, not for the sampled ones", "anchors": ["src/modified_scrape/node.rs: Node::share", "src/modified_scrape/aggregator.rs: PVSSAggregator::receive_share, share_verify, core_verify"]}
{"id": "C04", "title": "Decryption undoes encryption", "statement": "For an honest sharing with polynomial p, DecryptedShare::generate run by party i with the secret key behind its registered public key returns origin i and dec = p(i+1)*g1; for the dealer's own index this equals my_secret.", "quantifier": "all sharings, all parties, all nonzero secret keys", "why_tests_cant": "a law over all keys and polynomials", "anchors": ["src/modified_scrape/decryption.rs: DecryptedShare::generate", "src/modified_scrape/node.rs: Node::share_pvss"]}
{"id": "C05", "title": "Exactly when decryption fails", "statement": "DecryptedShare::generate panics exactly when the id is out of range of the encryption vector or the secret key is zero, and otherwise returns the element whose sk-multiple is the given encryption.", "quantifier": "all encryption vectors, keys and ids", "why_tests_cant": "zero keys are drawn with negligible probability", "anchors": ["src/modified_scrape/decryption.rs: DecryptedShare::generate"]}
{"id": "C06", "title": "Any t+1 shares reconstruct the secret in G1 and G2", "statement": "Given evaluations p(x_j)*g of a polynomial p of degree at most d at points whose first d+1 are pairwise distinct, lagrange_interpolation_g1 and lagrange_interpolation_g2 return p(0)*g.", "quantifier": "all groups elements g, all polynomials of degree <= d, all point lists (including points equal to 0) and any number of extra evaluations", "why_tests_cant": "holds for every polynomial, point set and degree", "anchors": ["src/modified_scrape/poly.rs: lagrange_interpolation_g1, lagrange_interpolation_g2"]}
{"id": "C07", "title": "Reconstruction over the target group", "statement": "Given evaluations e(p(x_j)*g1, h) at u64 points whose first d+1 are pairwise distinct modulo the group order, lagrange_interpolation_gt returns e(p(0)*g1, h).", "quantifier": "all bilinear maps, polynomials, bases and point lists", "why_tests_cant": "as above; the exponent arithmetic goes through canonical integer representatives", "anchors": ["src/modified_scrape/poly.rs: lagrange_interpolation_gt"]}
{"id": "C08", "title": "Commitment interpolation at zero", "statement": "lagrange_interpolation_simple on commitments p(i+1)*g2, i = 0..n-1, with deg p <= degree < n returns p(0)*g2; more generally it is linear in the commitment vector.", "quantifier": "all polynomials, sizes and degrees with degree < n < group order", "why_tests_cant": "every size and degree", "anchors": ["src/modified_scrape/poly.rs: lagrange_interpolation_simple"]}
{"id": "C09", "title": "The reconstructed value does not depend on which shares are used", "statement": "For decrypted shares of one transcript, interpolation in G1 and (after pairing with any epoch generator) in GT gives the same value for every choice and order of at least t+1 distinct parties, even when different choices have different sizes.", "quantifier": "all pairs of share selections", "why_tests_cant": "exponentially many selections; the repo's test compares four", "anchors": ["src/modified_scrape/poly.rs: lagrange_interpolation_g1, lagrange_interpolation_gt", "src/modified_scrape/decryption.rs"]}
{"id": "C10", "title": "Interpolation errors and panics are exactly characterised", "statement": "The interpolation functions return InsufficientEvaluationsError iff fewer than degree+1 evaluations are given, otherwise DifferentPointsEvalsError iff the numbers of points and evaluations differ, otherwise panic iff two of the first degree+1 points coincide, otherwise Ok.", "quantifier": "all inputs with degree+1 < 2^64", "why_tests_cant": "full case split over all inputs", "anchors": ["src/modified_scrape/poly.rs: lagrange_interpolation_g1, lagrange_interpolation_g2, lagrange_interpolation_gt, lagrange_interpolation_simple"]}
{"id": "C11", "title": "End-to-end: the aggregated secret is recoverable by any t+1 parties", "statement": "For any transcript built from honest shares, any t+1 distinct parties decrypting the aggregated encryptions and interpolating obtain the g1-multiple by P(0), where P is the weighted sum of the dealers' polynomials and P(0)*g2 is the weighted sum of the published gs values.", "quantifier": "all transcripts built from honest shares in any aggregation order, all selections of parties", "why_tests_cant": "composition of dealing, aggregation, decryption and interpolation over all histories", "anchors": ["src/modified_scrape/node.rs", "src/modified_scrape/aggregator.rs", "src/modified_scrape/share.rs", "src/modified_scrape/decryption.rs", "src/modified_scrape/poly.rs"]}
{"id": "C12", "title": "Degree check accepts every low-degree commitment vector", "statement": "ensure_degree returns Ok for every commitment vector that commits to a polynomial of degree at most `degree`, for every random draw.", "quantifier": "all vectors of length n with degree+2 <= n < group order, all random streams", "why_tests_cant": "perfect completeness over all draws", "anchors": ["src/modified_scrape/poly.rs: ensure_degree"]}
{"id": "C13", "title": "Degree check rejects high-degree vectors except with probability 1/r", "statement": "If a commitment vector is not the evaluation of a degree <= t (group-valued) polynomial at 1..n, then among the r^(n-t-1) equally likely draws of the challenge polynomial at most a 1/r fraction makes ensure_degree return Ok; in all other cases it returns DualCodeError.", "quantifier": "all non-codewords, all n,t", "why_tests_cant": "a probability bound of 2^-255 cannot be sampled", "anchors": ["src/modified_scrape/poly.rs: ensure_degree"]}
{"id": "C14", "title": "Boundary behaviour of the degree check", "statement": "ensure_degree returns InsufficientEvaluationsError iff n < degree; for n = degree it never returns normally; for n = degree+1 it panics with overflow checks, and without them it accepts every vector or panics for every vector, depending only on whether the dependency's polynomial sampler counts its coefficients with a wrapping d+1 or inclusively; for n >= degree+2 (n below the group order) it never panics.", "quantifier": "all vectors, degrees, random streams and both overflow-check modes", "why_tests_cant": "the outcome depends on build profile and wrap-around of unsigned arithmetic", "anchors": ["src/modified_scrape/poly.rs: ensure_degree"]}
{"id": "C15", "title": "What an accepted share guarantees", "statement": "If share_verify returns Ok then: the id is a registered participant and < n, both vectors have length n, the degree test passed on the drawn challenge, the commitments interpolate at 0 to the proof's gs, the dealer's own slot satisfies e(pk,comm)=e(enc,g2), the discrete-log proof for gs verifies and the EdDSA signature on the proof digest verifies under the dealer's registered key; and conversely these conditions imply Ok.", "quantifier": "all shares, aggregator states and random streams", "why_tests_cant": "exact characterisation over adversarial inputs", "anchors": ["src/modified_scrape/aggregator.rs: share_verify, core_verify", "src/modified_scrape/share.rs: SignedProof::verify"]}
{"id": "C16", "title": "Every encryption of an accepted share is correct", "statement": "Every share accepted by share_verify encrypts, for every party i, the value committed in comms[i] under pk_i (e(pk_i, comm_i) = e(enc_i, g2)).", "quantifier": "all accepted shares and all i < n", "why_tests_cant": "quantifies over adversarial shares; the tests only use honest ones", "anchors": ["src/modified_scrape/aggregator.rs: share_verify"]}
{"id": "C17", "title": "An accepted share is bound to its signed proof", "statement": "Nobody without the dealer's keys can turn an accepted share into a different accepted share of the same dealer (the signature authenticates the whole share).", "quantifier": "all accepted shares and all public modifications", "why_tests_cant": "quantifies over all adversarial modifications", "anchors": ["src/modified_scrape/share.rs: PVSSShare, SignedProof", "src/modified_scrape/decomp.rs: DecompProof::digest"]}
{"id": "C18", "title": "Invalid input never returns a verification error to the caller: it panics", "statement": "receive_share returns Ok, panics, or returns Err(TranscriptDifferentCommitments) and nothing else; receive_aggregated_share returns Ok or panics; SignedProof::verify returns Ok or panics (so InvalidSignedProofError is never returned).", "quantifier": "all inputs, states and random streams", "why_tests_cant": "a claim that some outcomes never occur", "anchors": ["src/modified_scrape/aggregator.rs: receive_share, receive_aggregated_share", "src/modified_scrape/share.rs: SignedProof::verify"]}
{"id": "C19", "title": "Rejected input leaves the transcript unchanged", "statement": "Whenever receive_share or receive_aggregated_share does not return Ok, the aggregator's configuration, participants and aggregated transcript are exactly what they were before; configuration and participants never change.", "quantifier": "all operations in all states", "why_tests_cant": "all failure points of all inputs", "anchors": ["src/modified_scrape/aggregator.rs: receive_share, receive_aggregated_share"]}
{"id": "C20", "title": "What an accepted aggregated share guarantees", "statement": "aggregation_verify returns Ok exactly when: both vectors have length n, the degree test passed, the batched pairing equation holds for the drawn r, every contributor is registered and its signed proof verifies, and the weighted sum of the gs values equals the interpolation of the commitments at 0.", "quantifier": "all aggregated shares, aggregator states and random streams (n >= t+2)", "why_tests_cant": "exact characterisation over adversarial inputs", "anchors": ["src/modified_scrape/aggregator.rs: aggregation_verify"]}
{"id": "C21", "title": "Batched pairing check validates every encryption", "statement": "Except with negligible probability over the verifier's randomness, an aggregated share accepted by aggregation_verify has a correct encryption for every party.", "quantifier": "all aggregated shares and random streams", "why_tests_cant": "quantifies over adversarial inputs and verifier randomness; the code draws one scalar and repeats it n times", "anchors": ["src/modified_scrape/aggregator.rs: aggregation_verify (line 188)"]}
{"id": "C22", "title": "Core aggregation is componentwise addition with precise errors", "statement": "PVSSCore::aggregate returns Ok exactly when self.comms is nonempty and all four vector lengths agree, and then every encryption and commitment is the sum of the two inputs at the same index; otherwise it returns the first failing check's error with the documented lengths.", "quantifier": "all pairs of cores", "why_tests_cant": "all sizes and length mismatches", "anchors": ["src/modified_scrape/pvss.rs: PVSSCore::aggregate"]}
{"id": "C23", "title": "Aggregation is commutative on cores, weights and commitments", "statement": "For two aggregated shares, aggregate(a,b) is Ok iff aggregate(b,a) is Ok, and then both have the same core, the same contributor set, the same gs and the same weight per contributor; they are equal outright when common contributors carry identical signed proofs.", "quantifier": "all pairs of aggregated shares", "why_tests_cant": "all pairs", "anchors": ["src/modified_scrape/share.rs: PVSSAggregatedShare::aggregate"]}
{"id": "C24", "title": "Aggregation is associative", "statement": "(a+b)+c is Ok iff a+(b+c) is Ok, and then the two transcripts are equal.", "quantifier": "all triples of aggregated shares with the vector lengths of their configuration", "why_tests_cant": "all triples", "anchors": ["src/modified_scrape/share.rs: PVSSAggregatedShare::aggregate"]}
{"id": "C25", "title": "The empty transcript is the identity of aggregation", "statement": "Aggregating PVSSAggregatedShare::empty(t,n) with a well-formed transcript of the same configuration, on either side, returns that transcript (n >= 1).", "quantifier": "all well-formed transcripts", "why_tests_cant": "all transcripts", "anchors": ["src/modified_scrape/share.rs: PVSSAggregatedShare::empty, aggregate", "src/modified_scrape/pvss.rs: PVSSCore::empty"]}
{"id": "C26", "title": "Aggregating a list of shares gives their sum and counts, in any order", "statement": "Starting from the empty transcript, aggregating any list of well-formed shares with one gs per dealer (fewer than 2^64 shares) gives the transcript whose core is the componentwise sum, whose contributors are exactly the dealers in the list, whose weight for each dealer is its number of occurrences and whose stored proof is the dealer's first; hence permuted lists give equal cores, weights and gs values.", "quantifier": "all lists of shares and all permutations", "why_tests_cant": "n! orders", "anchors": ["src/modified_scrape/share.rs: aggregate_pvss_share", "src/modified_scrape/aggregator.rs: receive_share"]}
{"id": "C27", "title": "Tree aggregation agrees with sequential aggregation", "statement": "Any binary tree of aggregations over the same list of shares (sub-committees aggregating separately and exchanging transcripts) yields the same transcript as sequential aggregation of the leaves from left to right.", "quantifier": "all binary trees over all share lists", "why_tests_cant": "Catalan-many trees", "anchors": ["src/modified_scrape/share.rs: aggregate, aggregate_pvss_share", "src/modified_scrape/node.rs: test_aggregation_with_4_nodes"]}
{"id": "C28", "title": "Duplicate delivery is counted, not lost", "statement": "Receiving the same valid share k times multiplies core and weight by k and keeps gs, and the transcript still passes verification at every peer.", "quantifier": "all k below 2^64, all honest shares", "why_tests_cant": "test_double_aggregation covers k = 2", "anchors": ["src/modified_scrape/share.rs: aggregate", "src/modified_scrape/node.rs: test_double_aggregation"]}
{"id": "C29", "title": "Equivocation by a dealer is detected", "statement": "If a transcript already holds a contribution of dealer i with gs, receiving a valid share of i with another gs returns Err(TranscriptDifferentCommitments) and merging a transcript with another gs for i is refused; the transcript is unchanged.", "quantifier": "all states and all conflicting shares", "why_tests_cant": "all conflicting pairs", "anchors": ["src/modified_scrape/share.rs: aggregate (lines 108-118)", "src/modified_scrape/aggregator.rs: receive_share"]}
{"id": "C30", "title": "Transcripts of different configuration are refused", "statement": "aggregate returns TranscriptDifferentConfig with the four values whenever degree or num_participants differ, before anything else is examined.", "quantifier": "all pairs of aggregated shares", "why_tests_cant": "all pairs", "anchors": ["src/modified_scrape/share.rs: aggregate (lines 95-102)"]}
{"id": "C31", "title": "Transcript invariant over all histories", "statement": "After any sequence of receive_share and receive_aggregated_share calls with arbitrary (also adversarial) inputs, an aggregator built by PVSSAggregator::new whose participant ids are all < n holds a transcript of its own configuration, with vectors of length n, whose every contribution comes from a registered id < n with a verifying signed proof, and whose commitments interpolate at 0 to the weighted sum of the contributors' gs (overflow checks on).", "quantifier": "all operation sequences, inputs and random streams", "why_tests_cant": "induction over unbounded adversarial histories", "anchors": ["src/modified_scrape/aggregator.rs: PVSSAggregator::new, receive_share, receive_aggregated_share"]}
{"id": "C32", "title": "Transcripts built from honest shares verify at every peer", "statement": "Any transcript obtained by aggregating honest shares and transcripts in any order and multiplicity is accepted by aggregation_verify of every aggregator with the same configuration and participants, for every random draw.", "quantifier": "all aggregation histories of honest material, all peers, all random streams", "why_tests_cant": "unbounded histories and all draws", "anchors": ["src/modified_scrape/aggregator.rs: aggregation_verify", "src/modified_scrape/share.rs"]}
{"id": "C33", "title": "An aggregator's transcript is always acceptable to its peers", "statement": "The transcript held after successfully receiving any accepted shares (also adversarial ones) passes aggregation_verify at every peer with the same configuration.", "quantifier": "all histories of accepted inputs", "why_tests_cant": "adversarial histories", "anchors": ["src/modified_scrape/aggregator.rs: share_verify, aggregation_verify"]}
{"id": "C34", "title": "Weights count contributions without overflow", "statement": "Adding weights beyond 2^64-1 panics when overflow checks are on; without them the weight wraps modulo 2^64 and the transcript no longer matches its core. When no overflow occurs both build modes give identical results.", "quantifier": "all pairs of weights and transcripts, both modes", "why_tests_cant": "2^64 deliveries cannot be tested", "anchors": ["src/modified_scrape/share.rs: aggregate (line 117)"]}
{"id": "C35", "title": "Contributions are never silently dropped", "statement": "Every contributor of either input of a successful aggregate appears in the result.", "quantifier": "all pairs of aggregated shares", "why_tests_cant": "ids >= num_participants never occur in tests", "anchors": ["src/modified_scrape/share.rs: aggregate (lines 105-127)"]}
{"id": "C36", "title": "Discrete-log proofs verify", "statement": "Every proof returned by DLKProof::prove for a witness w verifies against the statement from_witness(w) under the same SRS.", "quantifier": "all witnesses, nonces, generators and hash outputs", "why_tests_cant": "all witnesses and nonces", "anchors": ["src/nizk/dlk/mod.rs: prove, verify, from_witness, generate_pair"]}
{"id": "C37", "title": "Discrete-log proofs are special-sound", "statement": "From two accepting transcripts with the same nonce commitment and different challenges the witness is computed; hence for a fixed commitment a statement outside the span of g has at most one accepting challenge.", "quantifier": "all pairs of accepting transcripts", "why_tests_cant": "algebraic law over all transcripts", "anchors": ["src/nizk/dlk/mod.rs: verify"]}
{"id": "C38", "title": "An accepted discrete-log proof shows knowledge of the statement's discrete log", "statement": "No party can produce a statement and an accepting DLK proof without knowing the statement's discrete logarithm (the challenge binds the statement).", "quantifier": "all provers, also those choosing the statement after the commitment", "why_tests_cant": "quantifies over all adversaries; the challenge hashes only g and the commitment", "anchors": ["src/nizk/dlk/mod.rs: prove, verify (lines 76-79, 104-107)", "src/modified_scrape/decomp.rs: DecompProof::verify"]}
{"id": "C39", "title": "Tampered discrete-log proofs are rejected", "statement": "DLKProof::verify returns Ok iff the stored challenge equals the hash and g*z + stmt*c equals the commitment; hence changing only the challenge always fails, changing only the response fails (g nonzero), and, if the challenge is nonzero, changing only the statement fails; otherwise the error is DLKVerify.", "quantifier": "all proofs, statements and single-field modifications", "why_tests_cant": "all modifications", "anchors": ["src/nizk/dlk/mod.rs: verify"]}
{"id": "C40", "title": "DLEQ proofs verify", "statement": "Every proof returned by DLEQProof::prove for w verifies against from_witness(w), for any pair of curves with the same scalar field.", "quantifier": "all witnesses, nonces and generators", "why_tests_cant": "all witnesses and nonces", "anchors": ["src/nizk/dleq/mod.rs: prove, verify, from_witness, generate_pair"]}
{"id": "C41", "title": "DLEQ proofs are sound", "statement": "Two accepting DLEQ transcripts with equal commitments and statement and different challenges yield one w with statement (w*g, w*h); for a statement that is not of this form at most one challenge value is accepting for given commitments; and the challenge hash input determines g, h, the statement and both commitments.", "quantifier": "all statements and transcripts", "why_tests_cant": "algebraic law; unequal logs are a measure-zero event in tests", "anchors": ["src/nizk/dleq/mod.rs: verify"]}
{"id": "C42", "title": "Tampered DLEQ proofs are rejected", "statement": "DLEQProof::verify returns Ok iff both equations and the challenge comparison hold; changing only the challenge or (g nonzero) only the response fails with DLEQVerify.", "quantifier": "all proofs and single-field modifications", "why_tests_cant": "all modifications", "anchors": ["src/nizk/dleq/mod.rs: verify"]}
{"id": "C43", "title": "Decomposition proofs", "statement": "Decomp::generate(p_0) returns a proof whose gs is p_0*g2 and which DecompProof::verify accepts under the same configuration; verify returns Ok or NIZKProofDoesNotVerifyError, and the digest that is signed is determined by, and (up to SHAKE256 collisions) determines, the whole serialized proof.", "quantifier": "all secrets, nonces, configurations and proofs", "why_tests_cant": "all secrets and nonces", "anchors": ["src/modified_scrape/decomp.rs: Decomp::generate, DecompProof::verify, DecompProof::digest, message_from_pi_i"]}
{"id": "C44", "title": "Schnorr signatures verify", "statement": "Every signature returned by sign(sk, m) verifies for m under from_sk(sk)'s public key.", "quantifier": "all keys, messages (any length) and nonces", "why_tests_cant": "all messages and nonces", "anchors": ["src/signature/schnorr/mod.rs: sign, verify, from_sk, generate_keypair"]}
{"id": "C45", "title": "Schnorr verification is exact and unforgeable in the algebraic sense", "statement": "verify returns Ok iff r*g + H(m,g,v)*pk = v and otherwise SchnorrVerify; two accepting signatures with the same v and different challenges reveal the secret key (nonce reuse is fatal); a signature with nonzero challenge verifies under at most one public key; with g nonzero at most one response is valid for a given v.", "quantifier": "all keys, messages, signatures", "why_tests_cant": "algebraic law over all signatures", "anchors": ["src/signature/schnorr/mod.rs: verify"]}
{"id": "C46", "title": "Schnorr signatures bind the public key", "statement": "A valid (message, signature) pair identifies its signer: nobody else can exhibit a public key of their choosing under which a given signature verifies for another message.", "quantifier": "all signatures and adversarially chosen keys", "why_tests_cant": "quantifies over adversarial keys; the challenge omits the public key", "anchors": ["src/signature/schnorr/mod.rs: sign, verify"]}
{"id": "C47", "title": "Batch verification accepts valid batches", "statement": "If every signature verifies individually, batch_verify returns Ok for every random alpha; the empty batch is accepted; a batch of one is accepted iff the signature verifies.", "quantifier": "all batches of any size and all random draws", "why_tests_cant": "all batch sizes and draws", "anchors": ["src/signature/schnorr/mod.rs: batch_verify"]}
{"id": "C48", "title": "Batch verification rejects invalid batches", "statement": "If some signature of a batch of k is invalid, at most k-1 of the r possible alpha values make batch_verify return Ok; otherwise it returns SchnorrVerify.", "quantifier": "all batches with at least one invalid signature", "why_tests_cant": "a probability bound of about 2^-250", "anchors": ["src/signature/schnorr/mod.rs: batch_verify"]}
{"id": "C49", "title": "Batch verification length errors", "statement": "batch_verify returns BatchVerification(#keys,#messages,#signatures) iff the three lengths are not all equal.", "quantifier": "all slices", "why_tests_cant": "all lengths", "anchors": ["src/signature/schnorr/mod.rs: batch_verify (lines 141-147)"]}
{"id": "C50", "title": "Hash inputs are unambiguous", "statement": "Different (message, generator, commitment) triples for Schnorr, different (g, g_w, h, h_w, g_r, h_r) tuples for DLEQ and different (g, g_r) pairs for DLK give different byte strings to the hash, and the three schemes use distinct padded personalisations.", "quantifier": "all pairs of inputs", "why_tests_cant": "injectivity over an infinite domain", "anchors": ["src/signature/schnorr/mod.rs: sign", "src/nizk/dleq/mod.rs: prove", "src/nizk/dlk/mod.rs: prove"]}
{"id": "C51", "title": "hash_to_field and hash_to_group return the first acceptable sample", "statement": "The functions are deterministic functions of (personalisation zero-padded to 8 bytes, message); they return the first block of the derived stream that decodes (for groups: decodes to a point whose cofactor multiple is nonzero), panic iff the personalisation exceeds 8 bytes and loop forever iff no block is acceptable; hash_to_group's result is nonzero and has order dividing the prime group order.", "quantifier": "all personalisations and messages", "why_tests_cant": "all messages; rejection loops of any length", "anchors": ["src/nizk/utils/hash.rs", "src/signature/utils/hash.rs"]}
{"id": "C52", "title": "Serialization round-trips", "statement": "For SRS, Config, Participant, PVSSCore, DecompProof, SignedProof, PVSSShare, PVSSAggregatedShare, and the EdDSA Digest, PublicKey, SecretKey and Signature: deserialize(serialize(x) followed by any bytes) = x, consuming exactly the serialized bytes.", "quantifier": "all values whose lengths and integers fit in 64 bits", "why_tests_cant": "all values and sizes", "anchors": ["src/modified_scrape/share.rs", "src/modified_scrape/pvss.rs", "src/modified_scrape/decomp.rs", "src/modified_scrape/config.rs", "src/modified_scrape/srs.rs", "src/modified_scrape/participant.rs", "src/lib.rs"]}
{"id": "C53", "title": "serialized_size is exact", "statement": "serialized_size of the EdDSA types is 32/32/64/64 and equals the number of bytes serialize writes.", "quantifier": "all values", "why_tests_cant": "all values", "anchors": ["src/lib.rs: CanonicalSerialize impls"]}
{"id": "C54", "title": "Truncated EdDSA input", "statement": "Deserializing Digest, PublicKey, SecretKey or Signature from fewer than 32/32/64/64 bytes panics (never Err); with enough bytes it always succeeds and consumes exactly that many.", "quantifier": "all byte strings", "why_tests_cant": "all byte strings", "anchors": ["src/lib.rs: CanonicalDeserialize impls"]}
{"id": "C55", "title": "Decoding is canonical", "statement": "A byte string that deserializes to a PVSSAggregatedShare is the serialization of that share (no two encodings of one transcript).", "quantifier": "all byte strings", "why_tests_cant": "all byte strings", "anchors": ["src/modified_scrape/share.rs: PVSSAggregatedShare (derive)"]}
{"id": "C56", "title": "Base64 key round-trip", "statement": "from_base64(to_base64(k)) = Ok(k) for public and secret keys; from_base64 panics iff the decoded bytes are too few, returns Err iff the text is not base64, and otherwise takes the first 32 (64) bytes, ignoring any surplus.", "quantifier": "all keys and all strings", "why_tests_cant": "all strings", "anchors": ["src/lib.rs: PublicKey::to_base64/from_base64, SecretKey::to_base64/from_base64"]}
{"id": "C57", "title": "Display of digests and keys", "statement": "Display never panics and prints 16 characters; two digests (public keys) print the same text iff their first 12 bytes agree; Debug prints differ whenever the values differ.", "quantifier": "all digests and keys, all pairs", "why_tests_cant": "all pairs of 32-byte values", "anchors": ["src/lib.rs: Display/Debug for Digest, PublicKey"]}
{"id": "C58", "title": "EdDSA wrapper correctness", "statement": "Signature::new(d, sk) for a generated key pair never panics and verifies for d under the matching public key; splitting into two halves loses nothing (flatten returns the original 64 bytes); verify and verify_batch return Err when a key or signature does not parse; verify_batch checks every vote against the one digest.", "quantifier": "all digests, generated keys and vote lists", "why_tests_cant": "all digests and keys", "anchors": ["src/lib.rs: Signature::new, flatten, verify, verify_batch, generate_keypair"]}
{"id": "C59", "title": "t decrypted shares reveal nothing about the secret scalar", "statement": "For any at most t parties and any values of their decrypted shares, the number of dealer coefficient draws consistent with these values is the same for every candidate secret p(0). The only deviation of the API is that dealing refuses the all-zero draw, so for the all-zero view the secret zero has exactly one draw fewer.", "quantifier": "all sets of at most t parties, all views, all pairs of candidate secrets", "why_tests_cant": "a counting statement over r^(t+1) draws", "anchors": ["src/modified_scrape/node.rs: Node::share_pvss", "src/modified_scrape/decryption.rs"]}
{"id": "C60", "title": "Decrypted shares are publicly checkable against the commitments", "statement": "For a transcript with correct encryptions and a party's real key, e(dec_i, g2) = e(g1, comms[i]), and for every mask r the product e(-g1,comm_i) e(g1, r*g2) e(dec_i - r*g1, g2) is one; conversely (non-degenerate pairing) a claimed decryption passing the check equals the real one.", "quantifier": "all transcripts, parties and masks", "why_tests_cant": "all masks and keys", "anchors": ["src/modified_scrape/decryption.rs", "src/modified_scrape/node.rs: test_aggregation_with_4_nodes (lines 435-461)"]}
{"id": "C61", "title": "The scalar field is large enough", "statement": "The BLS12-381 scalar field order is prime and exceeds 2^64, so every u64 participant index, weight and evaluation point maps to a distinct scalar.", "quantifier": "all pairs of u64 values", "why_tests_cant": "2^128 pairs", "anchors": ["src/lib.rs: Scalar", "Cargo.toml: ark-bls12-381"]}
{"id": "C62", "title": "An accepted message never locks a dealer out", "statement": "Whatever message an aggregator has accepted before, a correct share of a dealer whose recorded gs agrees is still received, and the resulting transcript is still acceptable to peers.", "quantifier": "all aggregator histories, correct shares and random streams, all overflow-check modes", "why_tests_cant": "needs an adversarial message with a weight near 2^64, which no sequence of honest deliveries reaches in a test", "anchors": ["src/modified_scrape/aggregator.rs: receive_share, receive_aggregated_share, aggregation_verify", "src/modified_scrape/share.rs: PVSSAggregatedShare::aggregate"]}
{"id": "C63", "title": "Listed contributors have contributed", "statement": "Every party listed among the contributions of an accepted transcript has contributed to it: its weight is not zero.", "quantifier": "all accepted transcripts", "why_tests_cant": "quantifies over adversarial transcripts", "anchors": ["src/modified_scrape/aggregator.rs: aggregation_verify", "src/modified_scrape/share.rs: PVSSAggregatedShare"]}
{"id": "C64", "title": "Generated pairs match and setups agree", "statement": "Key and statement generation returns the drawn scalar with its multiples of the generators and consumes one draw; different draws give different public keys; the setups of DLK, DLEQ and Schnorr do not depend on randomness, so what is proved or signed under one party's setup verifies under another's; the PVSS setup stores its three draws in g1, g2, g2_prime.", "quantifier": "all generators, random streams, witnesses and messages", "why_tests_cant": "all random streams", "anchors": ["src/nizk/dlk/mod.rs: setup, generate_pair, from_witness", "src/nizk/dleq/mod.rs: setup, generate_pair, from_witness", "src/signature/schnorr/mod.rs: setup, generate_keypair, from_sk", "src/modified_scrape/srs.rs: SRS::setup"]}
{"id": "C65", "title": "Wire layout and serialized_size", "statement": "Each derived type serializes as the concatenation of its fields in declaration order (integers as 8 little-endian bytes, vectors and maps behind their length), and serialized_size is exactly the number of bytes written; with BLS12-381 sizes a share takes 344+144n bytes and a transcript with k contributors 40+144n+336k.", "quantifier": "all values of all eight derived types", "why_tests_cant": "all sizes and values", "anchors": ["src/modified_scrape/srs.rs", "src/modified_scrape/config.rs", "src/modified_scrape/participant.rs", "src/modified_scrape/pvss.rs", "src/modified_scrape/decomp.rs", "src/modified_scrape/share.rs"]}
{"id": "C66", "title": "Secret key hygiene", "statement": "Dropping a SecretKey leaves 64 zero bytes; the Debug text of a SecretKey determines the whole key (from_base64 of it returns the key).", "quantifier": "all secret keys", "why_tests_cant": "all 64-byte keys", "anchors": ["src/lib.rs: Drop, Debug for SecretKey"]}
{"id": "C67", "title": "Digest conversions", "statement": "try_from succeeds exactly on slices of 32 bytes, and then to_vec returns the slice; size is 32.", "quantifier": "all byte slices and digests", "why_tests_cant": "all slice lengths and contents", "anchors": ["src/lib.rs: TryFrom<&[u8]> for Digest, Digest::to_vec, Digest::size"]}
{"id": "C68", "title": "Signed bytes of a decomposition proof", "statement": "message_from_pi_i returns exactly the bytes hashed by digest (commitment, challenge, response, gs), it is injective and the proof can be read back from it.", "quantifier": "all decomposition proofs", "why_tests_cant": "all pairs of proofs", "anchors": ["src/modified_scrape/decomp.rs: message_from_pi_i, DecompProof::digest", "src/modified_scrape/share.rs: message_from_pi_i"]}
{"id": "C69", "title": "Proofs and signatures leak nothing about the witness", "statement": "For a true statement the accepting DLK proofs, DLEQ proofs and Schnorr signatures are exactly the possible outputs of prove and sign, each for exactly one nonce; with a uniform nonce the output is uniform on a set that does not depend on the witness.", "quantifier": "all witnesses, statements, messages, proofs", "why_tests_cant": "a bijection between nonces and accepting proofs over the whole scalar field", "anchors": ["src/nizk/dlk/mod.rs: prove, verify", "src/nizk/dleq/mod.rs: prove, verify", "src/signature/schnorr/mod.rs: sign, verify"]}
{"id": "C70", "title": "Exact outcome of share_verify", "statement": "For every share, share_verify returns: Err(InvalidParticipantId) for an unregistered sender; a panic when the sender's id is beyond one of the two vectors; otherwise the error of the first failing check in the order encryption of the sender, vector lengths, degree test, gs; a panic when only the signed proof is invalid; and otherwise Ok having drawn exactly n-t-1 field elements.", "quantifier": "all shares, aggregators with n >= t+2 and random streams", "why_tests_cant": "all shares including adversarial ones and every combination of defects", "anchors": ["src/modified_scrape/aggregator.rs: share_verify, core_verify", "src/modified_scrape/share.rs: SignedProof::verify"]}
{"id": "C71", "title": "Exact outcome of aggregation_verify", "statement": "For every transcript, aggregation_verify returns the error of the first failing check in the order vector lengths, degree test, batched encryption equation; it panics when a party 0..n-1 is missing from the table or a contribution is unregistered or invalid; a wrong sum of weighted gs gives AggregationReconstructionMismatchError; otherwise Ok having drawn exactly n-t field elements.", "quantifier": "all transcripts, aggregators with n >= t+2 and random streams", "why_tests_cant": "all transcripts including adversarial ones and every combination of defects", "anchors": ["src/modified_scrape/aggregator.rs: aggregation_verify"]}
{"id": "C72", "title": "Exact effect of receiving", "statement": "A successful receive_share or receive_aggregated_share leaves configuration, table, degree and size unchanged, adds the received vectors entry by entry, keeps the entries of other parties, creates or increments the sender's entry (adds weights entry by entry, keeping the own signed proof), and leaves no entry at or above num_participants.", "quantifier": "all aggregators, shares and transcripts, all build modes", "why_tests_cant": "all states and messages", "anchors": ["src/modified_scrape/aggregator.rs: receive_share, receive_aggregated_share", "src/modified_scrape/share.rs: aggregate, aggregate_pvss_share"]}
{"id": "C73", "title": "Exact outcome and contents of Node::share", "statement": "Node::share succeeds exactly when share_pvss does and the stored EdDSA key pair is valid, fails with share_pvss's error, and panics otherwise; a produced share uses the first t+1 draws as coefficients, gs is the first draw times g2, the proof nonce is the next (fresh) draw, the signature is on the digest of exactly this proof, and exactly t+2 draws are consumed.", "quantifier": "all nodes and random streams", "why_tests_cant": "all random streams; nonce reuse is invisible to tests", "anchors": ["src/modified_scrape/node.rs: Node::share", "src/modified_scrape/decomp.rs: Decomp::generate"]}
{"id": "C74", "title": "Shares are bound to their session", "statement": "A share accepted in one session (configuration and participant table) is not accepted in a different session.", "quantifier": "all pairs of sessions and all shares", "why_tests_cant": "quantifies over pairs of deployments", "anchors": ["src/modified_scrape/aggregator.rs: share_verify", "src/modified_scrape/share.rs: SignedProof::verify"]}
{"id": "C75", "title": "Shares are bound to their dealer", "statement": "The vectors and the decomposition proof of an accepted share are not accepted as the share of another dealer, so contributions of different dealers are independent.", "quantifier": "all accepted shares and all registered parties", "why_tests_cant": "quantifies over adversarial shares", "anchors": ["src/modified_scrape/aggregator.rs: share_verify", "src/modified_scrape/decomp.rs: DecompProof::verify", "src/modified_scrape/share.rs: SignedProof::verify"]}
{"id": "C76", "title": "An honest contribution makes the secret unpredictable", "statement": "Whatever the other parties do after seeing the share of an honest dealer, an accepted transcript that lists this dealer with non-zero weight does not have a predetermined secret.", "quantifier": "all strategies of the other parties, all draws of the honest dealer", "why_tests_cant": "quantifies over strategies and counts draws", "anchors": ["src/modified_scrape/aggregator.rs: aggregation_verify, receive_share", "src/modified_scrape/node.rs: Node::share"]}
{"id": "C77", "title": "Base64 text follows RFC 4648", "statement": "to_base64 and Debug of keys, signatures and digests print the RFC 4648 text of the bytes (standard alphabet, six bits per symbol most significant first, = up to a multiple of four; 44 or 88 symbols), Display prints the text of the first twelve bytes, and decoding accepts exactly such texts, possibly with = missing at the end.", "quantifier": "all byte strings and all texts", "why_tests_cant": "all lengths and contents, against a specification on bit strings", "anchors": ["src/lib.rs: to_base64, from_base64, Display, Debug"]}
{"id": "C78", "title": "Aggregators converge", "statement": "Two histories of one aggregator state whose accepted messages are the same up to order (arbitrary other messages being refused in between, whatever the random draws) end with the same configuration, vectors, contributors, gs and weights, and peers judge the two transcripts alike; if all calls of a history are accepted they are accepted in every order; of two shares of an equivocating dealer the first to arrive is kept, so there the order matters.", "quantifier": "all histories with arbitrary messages, all build modes", "why_tests_cant": "all orders and all interleavings with refused messages", "anchors": ["src/modified_scrape/aggregator.rs: receive_share, receive_aggregated_share", "src/modified_scrape/share.rs: aggregate"]}
{"id": "C79", "title": "Publicly checked shares reconstruct the committed secret", "statement": "If the commitments are a codeword with value P at zero, any t+1 or more values (from anybody, whatever the encryptions) that pass the masked pairing check against their commitments reconstruct the unique s with e(s, g2) = e(g1, P); different admissible collections give the same secret, and for an accepted transcript this is the secret fixed by the weighted gs of its contributors.", "quantifier": "all codewords, collections of submitted values, masks and build modes", "why_tests_cant": "all subsets, orders and adversarial values", "anchors": ["src/modified_scrape/decryption.rs: DecryptedShare", "src/modified_scrape/poly.rs: lagrange_interpolation_g1, lagrange_interpolation_gt, lagrange_interpolation_simple", "src/modified_scrape/aggregator.rs: aggregation_verify"]}
{"id": "C80", "title": "Holders of the keys reconstruct the secret of what they accepted", "statement": "After any sequence of accepted messages, if the transcript's commitments are a codeword, every admissible set of parties that decrypts its own slots reconstructs the secret fixed by the contributors.", "quantifier": "all histories with arbitrary messages, all admissible sets of parties", "why_tests_cant": "all adversarial histories and all subsets", "anchors": ["src/modified_scrape/aggregator.rs: receive_share, receive_aggregated_share, share_verify, aggregation_verify", "src/modified_scrape/decryption.rs: DecryptedShare::generate"]}
{"id": "C81", "title": "Adaptive adversaries fool the degree test rarely", "statement": "An adversary that sends k arbitrary messages, each chosen after seeing all earlier verification randomness, leaves the aggregator with commitments that are no codeword for at most a k/r fraction of the verifier's draws; for all other draws any publicly checked values reconstruct the contributors' secret.", "quantifier": "all adaptive strategies, all numbers of calls, all sizes", "why_tests_cant": "quantifies over strategies and counts draws", "anchors": ["src/modified_scrape/aggregator.rs: receive_share, receive_aggregated_share", "src/modified_scrape/poly.rs: ensure_degree"]}
{"id": "C82", "title": "Malformed messages are reported as errors", "statement": "Deserializing any byte string into any of the protocol's types gives a value or an error; it does not panic.", "quantifier": "all byte strings and all derived types", "why_tests_cant": "all byte strings, truncated at every position", "anchors": ["src/lib.rs: CanonicalDeserialize for PublicKey, Signature", "src/modified_scrape/share.rs: PVSSShare, PVSSAggregatedShare, SignedProof", "src/modified_scrape/participant.rs: Participant"]}
{"id": "C83", "title": "A network of honest nodes stays consistent", "statement": "Under every schedule of an unreliable network (shares and transcripts lost, repeated, delayed, reordered) between nodes that follow the protocol, every transcript held or posted is accepted by every node, holds only published contributions, and reconstructs the sum of the dealt secrets times their weights; nodes with equal weights hold equal transcripts; a delivery fails only if a weight would reach 2^64, and then nothing changes.", "quantifier": "all schedules, numbers of nodes and published shares, all random streams", "why_tests_cant": "all infinite families of interleavings", "anchors": ["src/modified_scrape/aggregator.rs: receive_share, receive_aggregated_share", "src/modified_scrape/share.rs: aggregate"]}
{"id": "C84", "title": "Honest nodes can exchange transcripts forever", "statement": "Nodes that only ever receive shares of honest dealers and transcripts of honest nodes never fail.", "quantifier": "all schedules of all lengths", "why_tests_cant": "the failure needs weights beyond 2^64", "anchors": ["src/modified_scrape/share.rs: aggregate", "src/modified_scrape/aggregator.rs: receive_aggregated_share"]}
{"id": "C85", "title": "A whole deployment works", "statement": "For every number of parties and threshold with t+2 <= n: with freshly generated keys every dealer's share succeeds; along every order and tree of aggregation (share by share, transcripts of subcommittees, repetitions) every call succeeds unless a share is used 2^64 times; nodes that used the same shares hold equal transcripts; every party decrypts with its key, the decryption passes the public check, and any t+1 parties reconstruct the sum of the dealt secrets. Exactly (r-1)^n (r^(t+1)-1)^n of all draws of keys and coefficients let the deployment run through.", "quantifier": "all n, t, random draws, plans of aggregation and selections of parties", "why_tests_cant": "generalises the integration tests of node.rs from one tree of four nodes to all trees and sizes", "anchors": ["src/modified_scrape/node.rs: Node::new, Node::share", "src/modified_scrape/aggregator.rs: receive_share, receive_aggregated_share", "src/modified_scrape/decryption.rs: DecryptedShare::generate", "src/signature/schnorr/mod.rs: generate_keypair", "src/lib.rs: generate_keypair"]}
{"id": "C86", "title": "One honest dealer keeps the secret hidden", "statement": "Fix everything but the draws of one dealer whose weight in the transcript is not a multiple of r. For every view of at most t parties of this dealer's share and every candidate secret, the number of draws that give this view and make the parties reconstruct this secret from the transcript is the same (the zero polynomial, on which dealing panics, apart).", "quantifier": "all n, t, draws of the other dealers, aggregation plans, coalitions of at most t parties, views and secrets", "why_tests_cant": "counts draws and quantifies over all plans", "anchors": ["src/modified_scrape/node.rs: Node::share", "src/modified_scrape/aggregator.rs: receive_share, receive_aggregated_share", "src/modified_scrape/decryption.rs: DecryptedShare::generate"]}
{"id": "C87", "title": "Verification errors are true", "statement": "Whatever the random draws, an error returned by share_verify, aggregation_verify, transcript aggregation or Schnorr batch verification names a defect that its input has: an unregistered sender, a wrong encryption, these vector lengths, commitments that are no codeword, a wrong gs, differing configurations or gs, an invalid signature. Valid messages are never accused.", "quantifier": "all shares, transcripts, batches, random streams and build modes with n >= t+2", "why_tests_cant": "the tests are randomised checks; quantifies over all draws and all inputs", "anchors": ["src/modified_scrape/aggregator.rs: share_verify, core_verify, aggregation_verify", "src/modified_scrape/share.rs: aggregate", "src/signature/schnorr/mod.rs: batch_verify"]}
{"id": "C88", "title": "Error texts are true", "statement": "The text of every error describes the input that caused it; it is the attribute in errors.rs with the fields put in their places in order, and different errors have different texts.", "quantifier": "all errors and all inputs that cause them", "why_tests_cant": "all numbers in the texts", "anchors": ["src/modified_scrape/errors.rs: PVSSError", "src/modified_scrape/pvss.rs: PVSSCore::aggregate", "src/modified_scrape/share.rs: aggregate"]}
{"id": "C89", "title": "Dealings are homomorphic and binding", "statement": "Aggregating the cores dealt with two random streams gives the core dealt with the sum of the streams; every core has an inverse; the commitments determine the polynomial, hence secret and shares, uniquely; if g2 generates the group, every codeword commits to exactly one polynomial.", "quantifier": "all dealers, streams, sizes and cores", "why_tests_cant": "generalises test_core_aggregation to all cores and ties it to dealing", "anchors": ["src/modified_scrape/pvss.rs: PVSSCore::aggregate, PVSSCore::empty", "src/modified_scrape/node.rs: share_pvss"]}
{"id": "C90", "title": "Proofs of false equality statements are found rarely", "statement": "With the challenge hash a random table, an adversary that makes k look-ups, each chosen from the earlier answers, outputs a false DLEQ statement together with a proof that verify accepts for at most a (k+1)/r fraction of the tables.", "quantifier": "all adaptive strategies, numbers of look-ups, generators and finite hash domains", "why_tests_cant": "quantifies over strategies and counts oracles", "anchors": ["src/nizk/dleq/mod.rs: verify", "src/nizk/utils/hash.rs: hash_to_field"]}
{"id": "C91", "title": "Listed contributions are authentic", "statement": "Every contribution an aggregator lists came with a delivered message and is one of the decomposition proofs its dealer signed, unless a delivered message contains an EdDSA forgery for the dealer's key or a hash collision; hence the transcript's secret is the weighted sum of the secrets dealt by honest dealers plus the contributions of the others.", "quantifier": "all histories with arbitrary messages, all build modes, all sets of signed proofs", "why_tests_cant": "quantifies over adversarial histories", "anchors": ["src/modified_scrape/aggregator.rs: receive_share, receive_aggregated_share, share_verify, aggregation_verify", "src/modified_scrape/share.rs: SignedProof::verify, aggregate"]}
{"id": "C92", "title": "Challenges are unbiased", "statement": "If every field element is the decoding of equally many blocks, then among all contents of the first k blocks of generator output every field element is the result of hash_to_field equally often; no block decodes for exactly (256^size - r mu)^k contents. Points that come out of equally many blocks are returned by hash_to_group equally often.", "quantifier": "all block sizes, numbers of blocks, decoders, personalisations and messages", "why_tests_cant": "counts random streams", "anchors": ["src/nizk/utils/hash.rs: hash_to_field, hash_to_group", "src/signature/utils/hash.rs: hash_to_field, hash_to_group"]}
{"id": "C93", "title": "Provers know the logarithm and forgers yield the key", "statement": "With the challenge hash a random table, let a DLK prover for a fixed statement, or a Schnorr forger that knows only the public key, make k look-ups and succeed for T of the N tables. Running it again with a new answer at the verifier's look-up gives the discrete logarithm (the secret key) for W pairs of a table and an answer, with r T^2 <= (k+1) N (W + T). A statement without logarithm is accepted for at most a (k+1)/r fraction of the tables.", "quantifier": "all adaptive strategies, numbers of look-ups, generators and finite hash domains", "why_tests_cant": "quantifies over strategies and counts oracles", "anchors": ["src/nizk/dlk/mod.rs: verify", "src/signature/schnorr/mod.rs: verify"]}
{"id": "C94", "title": "Chosen-message forgers of Schnorr signatures yield the key", "statement": "With the challenge hash a random table, let a forger with k steps, each a look-up or a request for a signature on a message of its choice, win (output a valid signature on a message it did not ask about) for R of the tables and draws of the signer. A simulation that knows only the public key answers all steps; its output is a valid signature for T of its draws and tables, with r R r^k <= r T + k^2 N r^2k. Running it twice gives the secret key W times, with r T^2 <= (k+1) N r^2k (W + T).", "quantifier": "all adaptive forgers, numbers of steps, keys, generators and finite hash domains", "why_tests_cant": "quantifies over strategies and counts oracles and draws", "anchors": ["src/signature/schnorr/mod.rs: sign, verify"]}
{"id": "C95", "title": "Predicting the secret solves a Diffie-Hellman problem", "statement": "With the challenge hash a random table, a simulator that knows g1, g2, u, s u and s g2 but not s produces a share, public keys, and the values of t corrupted parties such that every property of these and of the secret holds for the same fraction of its runs as of the runs of an honest dealer (up to the zero polynomial). Hence an adversary that sees a share with the keys of t parties and outputs the secret s g1 computes s g1 from u, s u, g2, s g2 as often. And an adversary that tells the secret s g1 from a random point has, up to an r^-(t+1) fraction of the runs, the same advantage in telling s g1 from a random point given u, s u, g2, s g2.", "quantifier": "all adversaries, properties, coalitions of t parties, sizes, generators and finite hash domains", "why_tests_cant": "quantifies over strategies and counts oracles and draws", "anchors": ["src/modified_scrape/node.rs: Node::share, share_pvss", "src/modified_scrape/decomp.rs: Decomp::generate", "src/nizk/dlk/mod.rs: prove"]}
{"id": "C96", "title": "BLS12-381 meets the assumptions", "statement": "The base field order p and r of BLS12-381 are primes; the r-torsion of both curves is cyclic of order r, generated by the published generators; every non-trivial bilinear map on them is a pairing in the sense assumed elsewhere, and one exists; the compressed point formats (48 and 96 bytes) and the scalar format (32 bytes) satisfy the assumed laws; non-zero points and scalars have one encoding, infinity has one per element of the base field; every scalar is the decoding of exactly two blocks of 32 random bytes, so hash_to_field is unbiased. Hence the theorem on complete deployments holds for BLS12-381 under the assumptions on the pairing and EdDSA only.", "quantifier": "all points, byte strings, scalars, bilinear maps and deployments", "why_tests_cant": "groups of 255-bit order; primality of 381- and 448-bit numbers by certificates; universal statements about points and bytes", "anchors": ["Cargo.toml: ark-bls12-381", "src/nizk/utils/hash.rs: hash_to_field", "src/modified_scrape/node.rs: tests"]}
{"id": "C97", "title": "EdDSA as implemented satisfies the assumed laws", "statement": "Signature::verify accepts exactly if R and the key decompress, neither has small order, s is reduced and s B = R + k A; at most one s is accepted for a given R, key and digest. The laws assumed of EdDSA in other theorems hold for dalek's algorithm if and only if no nonce hash is zero modulo the group order, which is prime.", "quantifier": "all seeds, messages, keys, signatures, curve groups with the two laws, and hash functions", "why_tests_cant": "253-bit group order; equivalence over all hash functions", "anchors": ["src/lib.rs: Signature::new, Signature::verify, generate_keypair", "Cargo.toml: ed25519-dalek"]}
{"id": "C98", "title": "Batch verification agrees with single verification", "statement": "Signature::verify_batch accepts a list of votes exactly if Signature::verify accepts every vote.", "quantifier": "all votes, digests and weights", "why_tests_cant": "rare weights and small-order points", "anchors": ["src/lib.rs: Signature::verify_batch, Signature::verify"]}
{"id": "C99", "title": "A secret key with a wrong public half gives itself away", "statement": "SecretKey bytes are not checked for consistency. If one seed is stored with two different public halves and both keys sign the same digest, the signatures share R, and if the challenges differ the secret scalar is a quotient of public numbers, with which signatures on all digests can be made for the seed's true public key.", "quantifier": "all seeds, public halves, digests and nonces", "why_tests_cant": "quantifies over all keys and digests", "anchors": ["src/lib.rs: Signature::new, SecretKey::from_base64, SecretKey::deserialize"]}
{"id": "C100", "title": "Ed25519 meets the assumptions on the curve", "statement": "2^255-19 and the order of the base point of Ed25519 are primes; the points of Curve25519 correspond one to one to the solutions of the Edwards equation of RFC 8032, with sums given by its complete formulas; decompression undoes compression, and a byte string that denotes a point is its compression exactly if y is reduced and no sign is given to x = 0. Hence dalek's EdDSA over this curve has the laws assumed elsewhere unless a nonce hash is zero, and the theorem on complete deployments holds for BLS12-381 and Ed25519 under assumptions on the pairing and the nonce hash only.", "quantifier": "all points, byte strings, hash functions and deployments", "why_tests_cant": "255-bit field; primality by certificates; universal statements about points and bytes", "anchors": ["Cargo.toml: ed25519-dalek", "src/lib.rs: Signature::new, Signature::verify, generate_keypair"]}
{"id": "C101", "title": "The repository's tests pass, and for which draws", "statement": "Every test function in the repository, modelled line by line, returns or panics as its attribute demands except for the listed random draws: tests with a polynomial panic exactly if all drawn coefficients are zero (with keys: or a key is zero); the should_panic tests on proofs and signatures fail to panic exactly if the redrawn value coincides with the original (or the challenge is zero). The tests of four nodes and of double aggregation pass for all other draws.", "quantifier": "all draws of the random generators in every test, all build modes", "why_tests_cant": "a test run covers one draw; these are the tests", "anchors": ["src/nizk/dlk/mod.rs: mod test", "src/nizk/dleq/mod.rs: mod test", "src/signature/schnorr/mod.rs: mod test", "src/modified_scrape/decomp.rs: mod test", "src/modified_scrape/pvss.rs: mod test", "src/modified_scrape/poly.rs: mod test", "src/modified_scrape/share.rs: mod test", "src/modified_scrape/node.rs: mod test"]}
{"id": "C102", "title": "hash_to_group at BLS12-381 is uniform in the right subgroup", "statement": "The curves of BLS12-381 have exactly h1 r and h2 r points, h1 and h2 the cofactors, coprime to r. What hash_to_group returns is a non-zero point of the subgroup of order r. Every point of the first (second) curve, infinity included, is read from exactly 2 (16) blocks of 48 (96) random bytes. Hence among all contents of the first k blocks of the generator every non-zero point of the subgroup is the result equally often, and a share below (9/10)^k has no result.", "quantifier": "all personalisations of up to 8 bytes, messages, points and numbers of blocks", "why_tests_cant": "groups of 381- and 762-bit order; counts over all byte blocks", "anchors": ["src/nizk/utils/hash.rs: hash_to_group", "src/signature/utils/hash.rs: hash_to_group", "src/modified_scrape/poly.rs: tests", "Cargo.toml: ark-bls12-381"]}
{"id": "C103", "title": "Random scalars and reference strings have the right law at BLS12-381", "statement": "Let the 32-bit words of the generator be uniform and independent. Scalar::rand ends with probability one and returns every scalar with probability 1/r; n draws are independent. The rand of the two groups ends with probability one, returns only points of the subgroup of order r, each non-zero one with probability h/(h r - 1) and zero with probability (h - 1)/(h r - 1), h the cofactor. The three points of SRS::setup are independent with these laws, and one of them is zero with probability at most 3/r.", "quantifier": "all scalars, points, numbers of draws and tapes of words", "why_tests_cant": "probabilities over infinite tapes; events of probability 2^-254", "anchors": ["src/modified_scrape/srs.rs: SRS::setup", "src/nizk/dlk/mod.rs: prove, generate_pair", "src/signature/schnorr/mod.rs: sign, generate_keypair", "Cargo.toml: ark-bls12-381"]}
{"id": "C104", "title": "Error probabilities with the real generator at BLS12-381", "statement": "Let all scalars be drawn by Scalar::rand from uniform 32-bit words. A commitment vector that is not a codeword passes the degree test with probability at most 1/r; an adversary who sees all draws and sends k messages makes the transcript's commitments a non-codeword with probability at most k/r; a batch of k Schnorr signatures with a wrong one passes with probability at most (k-1)/r; a deployment of n parties works with probability (1-1/r)^n (1-r^-(t+1))^n; what at most t parties see of an honest dealing (not all zero) has the same joint probability with every secret; the tests of tampered proofs, of dealing and of interpolation fail with the stated probabilities.", "quantifier": "all vectors, batches, adversaries, deployments, plans and modes", "why_tests_cant": "events of probability 2^-254", "anchors": ["src/modified_scrape/poly.rs: ensure_degree", "src/modified_scrape/aggregator.rs: receive_share, receive_aggregated_share", "src/signature/schnorr/mod.rs: batch_verify", "src/modified_scrape/node.rs: Node::share", "src/modified_scrape/dealer.rs", "src/nizk/dlk/mod.rs: tests", "src/nizk/dleq/mod.rs: tests"]}
{"id": "C105", "title": "Work per call", "statement": "Receiving a share depends on at most two pairings, one challenge hash, one digest, one signature check and the first n - t - 1 random scalars; receiving a transcript on at most n + 1 pairings (as the comment says), one challenge hash, one digest and one signature check per contribution, and n - t random scalars; and for an accepted transcript with distinct commitments every one of the n + 1 pairings and every signature check decides. A dealing depends on t + 2 random scalars, one challenge hash, one digest and one signature. Schnorr verify, dlk and dleq verify take one challenge hash; sign and the provers one scalar and one hash; batch verification one scalar and one hash per signature.", "quantifier": "for all implementations of the external functions that agree on the stated number of inputs, all aggregators, shares, transcripts, nodes and random streams", "why_tests_cant": "A test sees the outcome in one implementation; that nothing else is read is a statement about all pairs of implementations.", "anchors": ["src/modified_scrape/aggregator.rs:102-233", "src/modified_scrape/node.rs:65-161", "src/signature/schnorr/mod.rs:55-195", "src/nizk/dlk/mod.rs:56-121", "src/nizk/dleq/mod.rs:66-191"]}
{"id": "C106", "title": "What an aggregator holds stays bounded and is never replaced", "statement": "After any sequence of calls with any outcomes the transcript of an aggregator for n parties has n encryptions, n commitments and contributions of at most n parties, all with ids below n, and its encoding has exactly 40 + n(n1 + n2) + k(80 + 2 n2 + 2 nf) bytes for k <= n contributions. The signed proof recorded for a party is never replaced or dropped by later calls, and with overflow checks its weight never goes down.", "quantifier": "for all suites, build modes, configurations, participant tables and sequences of calls", "why_tests_cant": "Tests make a few calls with well-formed inputs; growth and loss over arbitrary histories with adversarial inputs need an invariant.", "anchors": ["src/modified_scrape/aggregator.rs:237-267", "src/modified_scrape/share.rs:82-140", "src/modified_scrape/pvss.rs:30-69"]}
{"id": "C107", "title": "The batched pairing check is sound for independent scalars", "statement": "Everything in aggregation_verify after the scalars are drawn is a sound batch check: with a vector of independent scalars, as the comment asks, wrong encryptions pass for at most one in r of the vectors, and correct ones always pass. The check of every slot that is commented out accepts exactly the correct encryptions. So the defect of C21 lies in drawing one scalar for all parties.", "quantifier": "for all suites with a bilinear non-degenerate pairing and a G2 of prime order, all aggregators and all encryption and commitment vectors of the right length", "why_tests_cant": "The share of accepting vectors among r^n is out of reach of testing.", "anchors": ["src/modified_scrape/aggregator.rs:163-206"]}
{"id": "C108", "title": "Default keys and signatures, and the order of keys", "statement": "PublicKey::default() parses, as a point of order four of Ed25519. Signature::verify refuses every signature under it, and the default signature under every key. Hence a participant registered with the default key never contributes: no share under its id and no transcript with its id is accepted. verify_batch accepts a batch with only the default signature under the default key exactly if 4 divides z + (k z mod L), z the weight and k the challenge. Keys are ordered as big-endian numbers, and compare equal only if equal.", "quantifier": "for all signatures, digests, keys, hash functions, weights, aggregators, shares and transcripts", "why_tests_cant": "All signatures and digests under the key; the batch outcome depends on random weights.", "anchors": ["src/lib.rs:46-47", "src/lib.rs:121-122", "src/lib.rs:263-306", "src/modified_scrape/aggregator.rs:102-233"]}
{"id": "C109", "title": "Forging an EdDSA signature means finding the secret scalar", "statement": "Let SHA-512 be a table of uniform 64-byte strings and let a forger that knows only the public key make k look-ups and output a digest and a signature accepted by Signature::verify with probability e. Running it a second time with a fresh answer at one point gives two signatures from which the secret scalar is computed, with probability at least e (e/(k+1) - d), d = (N/L + 1)/N, N = 2^512. With the scalar every digest can be signed.", "quantifier": "for all curve groups with the two laws (Ed25519 is one), keys in the group of the base point, forgers, finite hash domains and numbers of look-ups", "why_tests_cant": "Counts over all hash tables and quantifies over all strategies.", "anchors": ["src/lib.rs:285-289", "Cargo.toml: ed25519-dalek"]}
{"id": "C110", "title": "EdDSA signatures against chosen-message attacks", "statement": "Let SHA-512 be a table of uniform 64-byte strings that maps the seed of a generated key to a scalar half and a uniform prefix half. A forger makes k steps, each a look-up or a request for a signature by Signature::new, chosen from the earlier replies, and outputs a digest it never asked for with a signature that Signature::verify accepts, with probability e. Then a simulation that makes the signatures up from the public key is accepted with probability e', where e <= (1 + 2^-259)^k e' + k^2 2^-251 + k 2^-256; and running the simulation twice gives the secret scalar with probability at least e' (e'/(k+1) - d), d = (N/L + 1)/N, N = 2^512. So nonces derived by hashing and repeated requests do not help a forger.", "quantifier": "for all curve groups with the two laws (Ed25519 is one), seeds, forgers, finite hash domains without the seed and numbers of steps", "why_tests_cant": "Counts over all hash tables and prefixes and quantifies over all adaptive strategies.", "anchors": ["src/lib.rs:251-259", "src/lib.rs:270-289"]}
{"id": "C111", "title": "Wire formats and hashes of the proof systems' and the Schnorr scheme's types", "statement": "Parameters, statements and proofs of both proof systems, Schnorr signatures and their parameters, and Decomp are written field by field in declaration order. Reading gives back what was written and leaves what follows, encodings have a fixed size (1 point; 1 point + 2 scalars; 2 points; 2 points + 2 scalars; 1 point + 1 scalar; nothing), every other byte string and every truncated one is an error and never a panic, and a value has one encoding where its points have one (at BLS12-381: without infinity; sizes 160, 208 and 80 for proofs over G2, proofs over G1 and G2 and signatures over G1). Hash feeds a hasher the proof, then the commitment, for decomposition proofs, and length and bytes for digests and keys; values are equal exactly if they feed the same bytes.", "quantifier": "for all codecs of points and scalars with the stated laws (BLS12-381's have them), all values and all byte strings; for all injective fixed-length feeds of points and scalars", "why_tests_cant": "The tests read back one encoding of each type; malformed and truncated byte strings are not tried, and no test touches Hash.", "anchors": ["src/nizk/dlk/srs.rs:8-11", "src/nizk/dlk/mod.rs:19-31", "src/nizk/dleq/srs.rs:7-15", "src/nizk/dleq/mod.rs:40-41", "src/signature/schnorr/srs.rs:6-9", "src/signature/schnorr/mod.rs:28", "src/modified_scrape/decomp.rs:28-38", "src/modified_scrape/decomp.rs:60-65", "src/lib.rs:46-47", "src/lib.rs:121-122"]}
{"id": "C112", "title": "The bytes of points and scalars at BLS12-381", "statement": "With the curve of the tests, a point of G1 is written as x in 48 little-endian bytes with the top bit set exactly if y is in the upper half of the field, a point of G2 as the two coordinates of x likewise (y's half decided by its second coordinate, by the first if that is zero), and infinity as zero bytes followed by 0x40. Reading accepts exactly these bytes, and for infinity any x below p; other flags, unreduced coordinates, an x without a point and points outside the subgroup are refused. Scalars are 32 little-endian bytes of the representative below r and nothing else is read. The bytes of the generators of G1 and G2 are the published ones.", "quantifier": "for all points, scalars and byte strings of the right length", "why_tests_cant": "All 2^384 and 2^768 byte strings.", "anchors": ["Cargo.toml: ark-bls12-381, ark-serialize", "src/modified_scrape/share.rs: CanonicalSerialize, CanonicalDeserialize", "src/lib.rs:22-38"]}
{"id": "C113", "title": "A network of aggregators under attack", "statement": "An adversary who controls the network and all dealers, and sees every random scalar once it is drawn, makes k calls to any number of aggregators with one configuration. For all but a k/r fraction of the draws the commitments held by every aggregator are a codeword at all times, and aggregators whose listed contributions have the same weighted sum lead to the same secret, whichever t+1 parties hand in values that pass the public check, even when their encryptions differ. With Scalar::rand at BLS12-381 the probability is at most k/r.", "quantifier": "for all suites with a bilinear non-degenerate pairing, configurations with t + 2 <= n <= r, n < 2^58, participant tables, adaptive strategies and numbers of calls and aggregators", "why_tests_cant": "Quantifies over strategies and counts over all draws of all aggregators.", "anchors": ["src/modified_scrape/aggregator.rs:64-267", "src/modified_scrape/poly.rs:24-60", "src/modified_scrape/share.rs:93-157"]}
{"id": "C114", "title": "The commented-out check of every slot closes the gaps", "statement": "Put the check of every encryption that is commented out in aggregation_verify in front of receive_share and receive_aggregated_share. It refuses no correct sharing. Behind it the encryptions every aggregator holds are correct for every party at all times, with certainty and in every build mode; and when an adversary who controls network and dealers and sees all draws makes k calls to any aggregators, then for all but a k/r fraction of the draws every transcript is at all times accepted by every peer, whatever the peer draws, and every t+1 parties that decrypt with their keys reconstruct the secret of the listed contributors. So C16, C21, C33 and C80, which are false of the code, fail for want of this check only.", "quantifier": "for all suites with a bilinear non-degenerate pairing, configurations with t + 2 <= n <= r, n < 2^58 with all parties registered, adaptive strategies and numbers of calls and aggregators", "why_tests_cant": "The check is not in the code; quantifies over strategies and counts over all draws.", "anchors": ["src/modified_scrape/aggregator.rs:64-267", "src/modified_scrape/aggregator.rs:166-180"]}
{"id": "C115", "title": "The hash functions written out", "statement": "With BLAKE2s, the ChaCha20 generator, SHAKE256 and SHA-512 written out as their standards define them: two different personalisations or messages with the same BLAKE2s digest, and two different messages with the same SHA-512 digest, exhibit two different calls of the compression function with the same result among the calls made for them. Two different messages with the same SHAKE256 digest exhibit two different last arguments of Keccak-f with values that agree in the digest, two different arguments with values that agree in the capacity, or a value with capacity zero; so do the 256-byte serializations of any two decomposition proofs with the same signed digest. hash_to_field and hash_to_group at BLS12-381 fail to terminate exactly if none of the first 2^63 (scalars and G2) or 2^64 (G1) attempts is acceptable, so termination is a finite question. hash_to_group gives the test of poly.rs its epoch generator, a named point, at the fourth attempt, and hence that test panics exactly if one of its eight drawn keys is zero. Key generation and signing of the EdDSA model give the answers of RFC 8032 (7.1, TEST 3). For every seed the secret scalar is the number of the first 32 bytes of the hash with the three lowest bits and the highest bit cleared and the second highest set.", "quantifier": "for all personalisations and messages below the length limits of the standards; for all draws of the test", "why_tests_cant": "All pairs of messages; 2^63 attempts.", "anchors": ["src/nizk/utils/hash.rs:8-51", "src/signature/utils/hash.rs:8-51", "src/modified_scrape/decomp.rs:85-94", "src/modified_scrape/poly.rs:536-543", "Cargo.toml: blake2s_simd, rand_chacha, sha3, ed25519-dalek"]}
{"id": "C116", "title": "The group of Ed25519 and what the two verifications accept", "statement": "The curve of Ed25519 has exactly 8 L points, and each is in exactly one way a B + u T with a < L, u < 8, where B is the base point and T a point of order eight. Exactly 8 L + 26 of the 2^256 byte strings are read as a point, and exactly 14 as a point of small order, those with one of seven numbers in their lower 255 bits. Signature::verify refuses all of these as a key or first half. In these coordinates, with key a B + u T, first half r B + w T, number s and challenge k, verify accepts exactly if s < L, a and r are not 0 mod L, s = r + k a mod L and w + k u = 0 mod 8; verify_batch with weights z accepts exactly if all s < L, the sums of z (r + k a) and z s agree mod L, and the sum of z w + (k z mod L) u is 0 mod 8.", "quantifier": "for all byte strings, digests, keys, signatures, numbers of votes, weights and hash functions", "why_tests_cant": "Counts all points and all 2^256 byte strings; all batches.", "anchors": ["src/lib.rs:263-306", "src/lib.rs:285-289", "Cargo.toml: ed25519-dalek"]}
{"id": "C117", "title": "Statement and key in the hash close the gaps of the proofs", "statement": "Put the statement into the hash of a discrete-log proof and the public key into that of a Schnorr signature. Honest proofs and signatures are still made whenever the hash terminates, and verify. With the hash a random table and k look-ups: a prover that chooses its statement as it likes, also after the look-ups, and convinces the verifier for T of the N tables yields by one rewinding the logarithm of its statement for W pairs of a table and an answer, r T^2 <= (k+1) N (W+T); it convinces the verifier of a statement without logarithm for at most a (k+1)/r fraction of the tables; and a signature valid for two different pairs of key and message, not both keys zero, is found for at most a (k+2)(k+3)/2r fraction. So C38 and C46, which are false of the code, fail for want of these points in the hash only.", "quantifier": "for all curves, generators, adaptive strategies, numbers of look-ups and finite hash domains", "why_tests_cant": "The longer hash is not in the code; counts over all tables and quantifies over strategies.", "anchors": ["src/nizk/dlk/mod.rs:56-121", "src/signature/schnorr/mod.rs:55-126"]}
{"id": "C118", "title": "Three tests on a received transcript repair the bookkeeping", "statement": "C35, C62 and C63 are false because receive_aggregated_share takes over whatever contributions a transcript lists, and C84 because weights double with every exchange. Put three tests in front of the unchanged function: listed ids are below num_participants, listed weights are positive, and no weight would exceed 2^63 with the transcript. Then in every build mode, for every table of participants and after any messages with fewer than 2^63 - 1 shares among them: the transcript has the form of C31, all listed weights are positive and at most 2^63 plus the number of shares received; every successful call adds the weights of the message exactly and keeps every contributor of both; a correct share of a dealer without conflicting record is received, and every peer that accepts the transcript without it accepts it with it; in the honest network every call returns Ok, a message is refused only if it is a transcript with which a weight would exceed 2^63, and all transcripts are accepted by all peers; honest executions with s shares and g exchanges, s * 2^g <= 2^63, are not changed by the tests. The tests do not keep an adversary from using up the room for transcripts: the 2^63-fold of a correct share passes, and then no transcript listing its dealer does, while the share itself is still received.", "quantifier": "all build modes, configurations, participant tables and messages (fewer than 2^63 - 2 shares); all executions of the honest network", "why_tests_cant": "The statement is about a program that does not exist yet and about all message sequences; the refuted claims show that samples do not find the cases the tests have to exclude.", "anchors": ["src/modified_scrape/aggregator.rs:254-267", "src/modified_scrape/share.rs:93-150", "src/modified_scrape/aggregator.rs:140-229"]}
{"id": "C119", "title": "The choice of the pairing does not matter", "statement": "On groups of prime order all non-degenerate bilinear maps agree on which products of pairings are one and on which are equal: with second arguments c_i g the product of the e(P_i, c_i g) is one exactly if the sum of the c_i P_i is zero. Hence every share_verify, aggregation_verify, receive_share and receive_aggregated_share, and every history of calls, has the same outcome and leaves the same state with every pairing, and values in the target group correspond one to one, respecting products. At BLS12-381 there is one pairing such that everything is as with this one for every map that is additive in both arguments, has values in the units and is not trivial on the generators.", "quantifier": "all pairings, suites, build modes, aggregators, messages and histories; at BLS12-381 all bilinear non-trivial maps", "why_tests_cant": "Compares all pairings; a test runs one.", "anchors": ["src/modified_scrape/aggregator.rs:116-124", "src/modified_scrape/aggregator.rs:184-203", "Cargo.toml: ark-bls12-381"]}
{"id": "C120", "title": "With the statement hashed no one predetermines the secret", "statement": "C76 is false: after seeing the honest dealer's share the others choose contributions with which the secret is one they know. Put the statement into the hash of the discrete-log proofs. The honest dealer's proof can then be simulated without its secret, with the same distribution, by programming the hash at one point. An adversary makes k look-ups and outputs contributions of at most n dealers, among them the gs of the honest dealer, H, with non-zero weight, and a number x; it wins if all proofs verify and the weighted sum of the gs is x g. For all but an n (k+1) (d+1) / r fraction of the tables, whenever it wins there are for every other contributor more than d of the r answers at its challenge so that the second runs with any of these answers give the logarithm of H, the honest dealer's secret, by one formula, if n (2^64 - 1) < r.", "quantifier": "for all curves, generators, points H, adaptive strategies, numbers of look-ups and dealers, d, and finite hash domains", "why_tests_cant": "The longer hash is not in the code; counts over all tables and quantifies over strategies.", "anchors": ["src/nizk/dlk/mod.rs:56-121", "src/modified_scrape/aggregator.rs:140-229", "src/modified_scrape/decomp.rs:42-81"]}
{"id": "C121", "title": "Session, dealer and statement in the hashes bind the shares", "statement": "C17, C74 and C75 are false because the signature of a share covers its decomposition proof only and nothing depends on session and dealer. Hash the session (configuration and participant table), the dealer's id and the statement with the challenge of the proof, session and id with the digest that is signed, and let the dealer sign a digest of the whole share as well. A dealer deals under the conditions of C73, and shares dealt this way are accepted by all aggregators of the session. Whoever brings an aggregator to accept a share that the registered dealer has not dealt in this session with these vectors and this proof has forged an EdDSA signature of the dealer or found a message with the digest of a signed one; the same for contributions of a transcript, with session, id and decomposition proof. An adversary with k look-ups that takes a seat of its own with a gs that is alpha H + beta g for the gs H of somebody else, alpha not 0, yields for all but a (k+1)(d+1)/r fraction of the tables with more than d of the r answers the logarithm of H whenever its proof verifies.", "quantifier": "for all suites, build modes, aggregators, shares, signatures, histories of dealt shares, adaptive strategies, numbers of look-ups and finite hash domains", "why_tests_cant": "The longer hashes are not in the code; the claims are reductions and counts over all tables.", "anchors": ["src/modified_scrape/share.rs:15-41", "src/modified_scrape/decomp.rs:42-112", "src/modified_scrape/aggregator.rs:102-135", "src/modified_scrape/node.rs:129-161"]}
{"id": "C122", "title": "With a random hash, equality proofs are proofs of knowledge and all three kinds of proofs can be simulated", "statement": "Let the hash to the field be a uniformly random table. A prover makes k look-ups and then gives generators, an equality statement and a proof of nizk/dleq, all chosen as it likes from the answers. If verify accepts for the tables in T, then a second run with another answer at the verifier's look-up gives, as (z - z')/(c' - c), the common logarithm of the statement for W pairs of a table and an answer with r|T|^2 <= (k+1) N (W + |T|); and for all but a (k+1)(d+1)/r fraction of the tables verify rejects or more than d of the r answers give the logarithm. For honest equality proofs, discrete-log proofs and Schnorr signatures, every observation of the proof together with the whole table holds for the same fraction of (nonce, table) as of (challenge, response, table) of a simulator that has only the statement and writes the challenge into the table at its commitment.", "quantifier": "for all primes r, groups, curves, generators, witnesses, messages, provers, numbers of look-ups, bounds d, domains of the table, observations", "why_tests_cant": "a statement about all provers and the distribution of the hash function; tests run one honest prover with one hash function", "anchors": ["src/nizk/dleq/mod.rs:66-191", "src/nizk/dlk/mod.rs:56-87", "src/signature/schnorr/mod.rs:55-89"]}
{"id": "C123", "title": "Three tests when reading make the decoders exact", "statement": "If a key or signature that is cut off is an error, the keys of a map have to increase, and a point has to be written as serialize writes it, then deserialize of every type of the protocol (SRS, Config, Participant, PVSSCore, DecompProof, SignedProof, PVSSShare, PVSSAggregatedShare) gives a value or an error on every byte string, and it gives the value x and the rest exactly if the bytes are the serialization of x followed by the rest and the numbers in x fit in 64 bits. So the claims of C55 and C82 hold. What is read so is read by the code as the same value; a participant, share or transcript that the code reads fits in 64 bits and is refused only if the bytes are not its serialization. At BLS12-381, of the encodings of infinity only that with x = 0 is read.", "quantifier": "for all suites with total, round-tripping point decoders, all byte strings and values; in particular BLS12-381", "why_tests_cant": "quantifies over all byte strings and all values; the repository has no test of malformed input", "anchors": ["src/lib.rs:162-168, 343-352", "src/modified_scrape/share.rs:21, 47, 58", "src/modified_scrape/participant.rs:25", "src/modified_scrape/config.rs:9", "src/modified_scrape/pvss.rs:10"]}
{"id": "C124", "title": "With the cofactor, batch verification and single verification of votes agree", "statement": "C98 is false because verify_batch lets points of small order pass and because the two equations of ed25519-dalek may differ by a point of small order. At Ed25519, refuse points of small order and numbers that are not reduced in both, and multiply both equations by eight. Then every vote that Signature::verify accepts still passes, and for keys and first halves that are multiples of the base point nothing else does; a list of votes that all pass singly passes as a batch with all weights; a list with a vote that does not pass singly passes as a batch for at most a 2^-128 fraction of the tuples of 128-bit weights.", "quantifier": "for all hash functions in place of SHA-512, digests, lists of votes and weights", "why_tests_cant": "The multiplication by eight is not in the code; the claim counts over all weights.", "anchors": ["src/lib.rs:285-306"]}
{"id": "C125", "title": "The repairs together, from bytes on the wire to the secret", "statement": "Put the tests of C123 when reading, the check of every slot of C114 and the tests of C118 in front of one unchanged aggregator, refuse bytes that are left over, and let messages arrive as bytes. Then in every build mode, whatever bytes are delivered to whichever aggregators and whatever is drawn (fewer than 2^63 deliveries): the books of every aggregator are in order as in C118, every encryption of its transcript is correct, and the bytes of its transcript are read by everybody as this transcript; bytes are received as a message exactly if the code writes them for it and its numbers fit in 64 bits, an aggregator that changes has received a message the code accepts and is as the code leaves it, who is listed stays listed with the same proof and a weight that does not decrease, and an aggregator receives a correct share from its bytes and counts it once, unless it lists the dealer with another gs signed by the dealer. Against an adversary who controls the network and all dealers and sees every scalar drawn, for all but a k/r fraction of the draws of k deliveries, at all times: every peer accepts every transcript, every t + 1 parties with their keys obtain the secret of the listed contributors from it, and every aggregator takes over every other's transcript from its bytes, adding the weights exactly, unless somebody listed in both has different gs there or a weight would exceed 2^63. At BLS12-381 with Scalar::rand both probabilities are at most k/r. The bytes of honest shares and transcripts pass everything in front, and executions of the honest network with s shares and g exchanges, s * 2^g <= 2^63, go as in the code.", "quantifier": "for all suites with the laws of pairing and codecs, build modes, configurations with t + 2 <= n <= r, n < 2^58, participant tables, byte strings, adaptive adversaries and draws; the parts that are certain for all t < 2^64 and n <= r, n < 2^64", "why_tests_cant": "The tests in front are not in the code; quantifies over all byte strings and adversaries and counts over all draws.", "anchors": ["src/modified_scrape/aggregator.rs:64-135", "src/modified_scrape/aggregator.rs:140-229", "src/modified_scrape/aggregator.rs:237-267", "src/modified_scrape/share.rs:15-150", "src/modified_scrape/pvss.rs:10"]}
{"id": "C126", "title": "Computing in coordinates is computing in the group", "statement": "The crate computes with Jacobian coordinates, converts to affine ones and back in almost every line, and tests points with is_zero, == on projective points and the comparison of all fields of affine points. With the formulas of ark-ec (doubling, mixed and full addition, negation in both kinds of coordinates, subtraction, conversion, multiplication by the bits of a scalar) every computation from affine inputs denotes the value in the group, in the exceptional cases too (infinity, equal points, opposite points, order two), and the tests decide equality of points. The batch normalization with one inversion and the multi-scalar multiplication with buckets that batch_verify calls give the affine points and the sum of the multiples, and do not panic. At BLS12-381 multiplication by into_repr is the scalar multiple, and products, squares and inverses in the quadratic extension are those of the field.", "quantifier": "for all curves y^2 = x^3 + b over fields with 2 != 0, coordinates, computations, bit strings and lists of scalars and bases", "why_tests_cant": "Exceptional cases of the formulas have probability about 2^-255 for random points; no test reaches them.", "anchors": ["src/modified_scrape/poly.rs:51-52", "src/modified_scrape/aggregator.rs:119", "src/modified_scrape/aggregator.rs:195-198", "src/signature/schnorr/mod.rs:174-190", "src/nizk/utils/hash.rs:31", "src/modified_scrape/srs.rs:29-31"]}
{"id": "C127", "title": "With the statement hashed no one predicts the value of a transcript with an honest contribution", "statement": "Put the statement into the hash of the discrete-log proofs as in C120. An adversary sees the share of one honest dealer, all public keys and the values that t corrupted parties get from the share, makes k look-ups of the hash, deals all other contributions of a transcript itself and outputs a point of the first group. It wins if the other contributions verify, the honest dealer's occurs with non-zero weight and the point is the value of the transcript, x g1 for the x with sum of the weighted gs = x g2. Run it on the simulator of C95, which has only u, s u, g2 and s g2, and again with other answers at the challenges of its contributions: if it wins for a fraction e of the dealer's runs, then for at least a fraction e - n (k+2) (d+1) / r of the simulator's runs more than d of the r answers at each challenge give the logarithm of that contribution, which can be checked, and with any such answers one formula gives s g1. The dealer's runs deal a share exactly when the polynomial is not zero. So predicting the value is as hard as that Diffie-Hellman problem.", "quantifier": "for all suites, configurations with n (2^64 - 1) < r, sets of t corrupted parties with any keys, adaptive adversaries, numbers of look-ups, d and finite hash domains", "why_tests_cant": "The longer hash is not in the code; a reduction that counts over all draws and tables and quantifies over strategies.", "anchors": ["src/modified_scrape/node.rs:129-161", "src/nizk/dlk/mod.rs:56-121", "src/modified_scrape/aggregator.rs:140-229", "src/modified_scrape/decomp.rs:42-81"]}
{"id": "C128", "title": "The limb arithmetic of the prime fields is that of the integers modulo p", "statement": "The crate computes with field elements of four or six limbs of 64 bits in Montgomery form, the model with residues. For parameters that belong to an odd prime with a free bit at the top, add, sub, mul, neg, double, square and inverse of ark-ff map canonical limbs to the canonical limbs of the sum, difference, product, negative, double, square and inverse; inverse is None for zero only and its loops end; every residue has exactly one canonical form, so == decides equality; from_repr gives the residue of every number below the modulus and None for others, and into_repr the number of the residue. So every computation in limbs denotes its value in the field and meets a None exactly if the field computation inverts zero. The published parameters of both fields of BLS12-381 belong to their primes.", "quantifier": "for all numbers of limbs, odd primes with a free bit, canonical inputs, and expressions of any size", "why_tests_cant": "Carries and final subtractions happen for rare values only; random tests do not reach them, and the crate has no tests of them.", "anchors": ["src/modified_scrape/poly.rs:44-52", "src/modified_scrape/poly.rs:84", "src/modified_scrape/decryption.rs:21", "src/modified_scrape/node.rs:79, 97", "src/modified_scrape/aggregator.rs:222", "src/nizk/dlk/mod.rs:82"]}
{"id": "C129", "title": "From limbs to points: the groups computed on limbs are the groups of the model", "statement": "C126 computes points with exact field elements, C128 field elements with limbs; together: store coordinates as canonical limbs in Montgomery form, in the second group as pairs with Karatsuba's product, and run the formulas of ark-ff on them. Everything computed from stored points, by additions, mixed additions, subtractions, negations, normalisation and multiplication by bits, denotes the value in the group; the tests is_zero, == and equality after into_affine decide zero and equality of the values. double_in_place and square_in_place give what 2 a and a a give. A stored point times a stored scalar through into_repr denotes the multiple in both groups of BLS12-381, and the multi-scalar multiplication ends without panic in a point that is zero exactly if the sum of the multiples is.", "quantifier": "for all stored points and scalars, computations of any size, and lists of bases and scalars of any lengths up to 2^64 scalars", "why_tests_cant": "Ranges over all points, all scalars and all computations; the link between limb arithmetic and the group law is not a testable input.", "anchors": ["src/modified_scrape/poly.rs:84", "src/modified_scrape/decomp.rs:42-81", "src/modified_scrape/aggregator.rs:140-229", "src/nizk/dlk/mod.rs:56-121", "src/signature/schnorr/mod.rs:187"]}
{"id": "C130", "title": "Computing Ed25519 in coordinates as curve25519-dalek does is computing in the group", "statement": "The group operations on extended, projective, completed and Niels coordinates, the tests for equality, identity and small order, compression and decompression give what the group gives; the signed digits (width-w NAF, radix 16, radix 2^6 to 2^8) stand for the scalar and stay in the range of their tables, so no table access panics; the multiplications with table (base point, double product, Straus, Pippenger) are sums of multiples; hence keys, signatures, single and batch verification of the crate are the functions that the other properties speak of.", "quantifier": "for all points and all their coordinates, all byte strings, all scalars below 2^255, all lists of scalars and points of any length (both algorithms), all hash functions, all messages, keys and signatures, all 128-bit weights", "why_tests_cant": "Tests run few scalars; a wrong carry in a signed digit, a missed branch of the square root or the switch to Pippenger at 190 points (95 votes) is not met by tests with a handful of votes.", "anchors": ["src/lib.rs:255", "src/lib.rs:271", "src/lib.rs:285-289", "src/lib.rs:291-306"]}
{"id": "C131", "title": "The limbs of Ed25519's field elements do not overflow and compute the field", "statement": "curve25519-dalek stores field elements in five limbs of 51 bits with room above. With all limbs below 2^54, sub, negate, mul, square, square2 and pow2k never overflow u64 or u128, never go below zero and meet their assertions; their result is right modulo 2^255 - 19 and its limbs are below 2^52 (2^53 for square2). Sums have the sum of the bounds. to_bytes gives the 32 bytes of the value below the modulus for all limbs, from_bytes the value of the lower 255 bits. These bounds are kept by every formula on points, by the products with tables and by decompression, so nothing in key derivation, signing, verification and batch verification overflows, and in limbs they are the functions that the other properties speak of.", "quantifier": "for all limbs within the bounds, all points in all limb representations, all scalars below 2^255, lists of any length, all hash functions, messages, keys, signatures and 128-bit weights", "why_tests_cant": "An overflow in a sum of products or a missed carry occurs for a tiny part of the inputs; in release builds it wraps without notice.", "anchors": ["src/lib.rs:255", "src/lib.rs:271", "src/lib.rs:285-289", "src/lib.rs:291-306"]}
{"id": "C132", "title": "The limbs of Ed25519's scalars do not overflow and compute modulo the order", "statement": "curve25519-dalek computes with scalars in five limbs of 52 bits and Montgomery reduction by 2^260. For all 32-byte values, reduced or not, multiplication, addition, negation, reduction and sums, and the reduction of 64 hash bytes, overflow neither u64 nor u128 and give the value modulo the order, below it; the test of signatures accepts exactly the scalars below the order, though it looks at the top four bits first. Hence signing, verification and batch verification with field elements (C131) and scalars in limbs never overflow and are the functions that the other properties speak of.", "quantifier": "for all scalars of 256 bits, all 64-byte hashes, lists of any length, all hash functions, messages, keys, signatures and 128-bit weights", "why_tests_cant": "The final subtraction of the order and the borrow between limbs happen for rare values, which random tests do not reach.", "anchors": ["src/lib.rs:271", "src/lib.rs:285-289", "src/lib.rs:291-306"]}
{"id": "C133", "title": "Two corrected texts make the error texts of aggregation true", "statement": "C88 is false for two texts of errors.rs. Write other.num_participants for the last label of TranscriptDifferentConfig, and let EmptyEncryptionsVectorError say that the commitments are empty, which is what its only use tests. Then, whenever two transcripts are refused, each of the labels self.degree, other.degree, self.num_participants and other.num_participants is followed in the text by the number of the transcript it names and by no other number, exactly if the configurations differ; a text of core aggregation gives the vectors that are empty or differ with their lengths; and different errors still have different texts.", "quantifier": "for all build modes, pairs of transcripts and of cores, errors and numbers", "why_tests_cant": "The corrected texts are not in the code; speaks about every occurrence of a label in the text, for all numbers.", "anchors": ["src/modified_scrape/errors.rs:31-40", "src/modified_scrape/pvss.rs:35-64", "src/modified_scrape/share.rs:93-101"]}
