# Formal model of optrand_pvss (DimitrisPapac/TemporaryName2) in Lean 4

## Layout

* `lean/Verif/Model/*`  – the model, one definition per Rust function, each with a `/repo` citation.
* `lean/Verif/Spec.lean` – small specification vocabulary (codewords, correct encryptions, weighted sums),
  written without using the model's helper functions.
* `lean/Verif/Lemmas/*` – helper lemmas.
* `lean/Verif/Props/*`  – the property theorems, with non-vacuity `example`s beside them.
* `properties.jsonl` (generated by `tools/gen_props.py`), `MANIFEST.json`, `seeded/LOG.jsonl`.

## Modelling decisions

* **Outcomes.** `Res ε α = ok | err e | panic | diverge`. `unwrap`/`expect`, slice indexing, inverse of zero,
  checked overflow and capacity overflow are `panic`; an endless rejection loop is `diverge`.
* **Build profile.** `Mode.checked` (debug: overflow checks), `Mode.wrapping` and `Mode.wrappingIncl` (the crate's release
  profile: `opt-level = 3`, no overflow checks). u64/usize arithmetic that can overflow is written out with the mode.
  The two wrapping modes differ only in how the dependency's `DensePolynomial::rand(d, _)` counts its `d + 1`
  coefficients (`0..(d + 1)` or `0..=d`), which matters only for `d = 2^64 - 1`; the dependency's source is not in /repo, so
  theorems are proved for both. usize is 64 bits.
* **Scalars** are `ZMod r` with `r` prime; scalar multiplication `P.mul(s.into_repr())` is multiplication by the canonical
  integer representative `s.val • P`.
* **Groups.** G1, G2 are additive commutative groups that are `ZMod r`-modules (i.e. the prime-order subgroups;
  arkworks checks subgroup membership when deserializing). GT is a commutative monoid (multiplicative monoid of Fqk).
  Projective/affine conversions are the identity in the model; C126 shows for the formulas of ark-ec that this loses nothing.
* **Pairing** is a function `G1 → G2 → K`; bilinearity and non-degeneracy are explicit hypotheses (`Pairing` laws)
  only where a theorem needs them. Product of pairings is the product of the values.
* **Randomness.** An `Rng` is an arbitrary infinite stream of scalars, consumed from the front; theorems quantify over
  all streams. Probabilities are counting statements over the consumed prefix.
* **Hashes.** BLAKE2s+ChaCha is an arbitrary function from (8-byte padded personalisation, message) to a byte stream;
  the rejection-sampling loop on top is modelled. SHAKE256 is an arbitrary function to 32 bytes. No
  collision-resistance is assumed anywhere. `Model/Primitives.lean` writes BLAKE2s, ChaCha20, SHAKE256 and SHA-512 out after
  their standards (the crates' source is not in /repo); C115 uses them, all other theorems hold for every function.
* **EdDSA (dalek)** is an abstract scheme (parse key, parse signature, sign, verify_strict, verify_batch). Only where
  honest signatures must verify is its correctness law assumed.
* **BTreeMap<usize, V>** is a strictly key-sorted association list (a subtype, so equality is BTreeMap equality).
* **Serialization** – `ark-serialize` primitives (u8, u64, usize, Vec, BTreeMap, tuples, derive) modelled on byte
  lists; codecs of curve points and scalars are parameters with a round-trip law.
* **Base64 0.13** standard alphabet encode and (padding-lenient) decode are modelled on byte lists.

## Plan per property

(see `properties.jsonl` for the full statements)

| id | modelled by | proof method |
|----|-------------|--------------|
| C01,C02 | `Node.sharePvss` over `Rng` | unfold loops to maps; polynomial of the coefficient list (`Polynomial.eval`) |
| C03 | `Node.share`, `Aggregator.receiveShare` | C12 + C08 + C36 + pairing bilinearity + EdDSA law |
| C04,C05 | `DecryptedShare.generate` | module algebra |
| C06–C10 | `lagrange*` | Mathlib Lagrange interpolation at 0, loops in `Res` turned to finite sums |
| C11 | composition | C32's invariant + C04 + C06 |
| C12–C14 | `ensureDegree` | dual code of Reed–Solomon (`Lagrange.coeff_eq_sum`), counting by injection |
| C15,C20 | `shareVerify`, `aggregationVerify` | exact characterisation (iff) |
| C16 | `shareVerify` | FALSE of the code (only the dealer's own slot is checked): negation by explicit adversarial share + partial |
| C17 | `shareVerify` | FALSE (signature covers only the decomposition proof): public mauling theorem + partial |
| C18,C19 | `receiveShare`, `receiveAggregatedShare` | case analysis |
| C21 | `aggregationVerify` | FALSE (`vec![rand; n]` repeats one scalar): only the sum of encryptions is checked; negation + exact partial |
| C22–C30 | `PVSSCore.aggregate`, `AggShare.aggregate` | pointwise lookup semantics of contributions, induction on share lists / trees |
| C31 | op histories `Aggregator.run` | invariant by induction |
| C32 | inductive `HonestTx` | invariant by induction, then C20 |
| C33 | | FALSE (consequence of C16): negation + C32 as partial |
| C34 | `Mode` | case analysis; wrap counterexample |
| C35 | `aggregate` | FALSE for ids ≥ num_participants; exact characterisation + partial |
| C36–C43 | `DLK`, `DLEQ`, `Decomp` | algebra; C38 FALSE (weak Fiat–Shamir: the statement is not hashed): forging theorem + partial |
| C44–C49 | `Schnorr` | algebra; root counting for batch; C46 FALSE (key substitution) + partial |
| C50,C51 | `Hash` | fixed-length suffix parsing; `Nat.find` of the rejection loop |
| C52–C58 | `Ser`, `EdDSA`, `Base64` | codec combinator laws; C55 FALSE (BTreeMap duplicates/order; at BLS12-381 also the encodings of infinity, `BlsWire`) + partial |
| C59 | `sharePvss` | bijection on coefficient vectors |
| C60 | pairing | bilinearity, non-degeneracy |
| C61 | BLS12-381 `r` | Lucas/Pratt certificate checked by the kernel |
| C62 | `receiveAggregatedShare`, weights | FALSE (weights near 2^64 chosen by the sender): negation, exact consequences per build mode, partial by C31 |
| C63 | `aggregationVerify` | FALSE (weight zero accepted): negation + invariant over histories as partial |
| C64 | `generate*`, `setup`, `from*` | unfolding; C36, C40, C44 across setups |
| C65 | `Model/Size.lean`, derived codecs | concatenation of the fields against an independent `Spec.le8`; lengths |
| C66–C68 | `EdDSA`, `Base64`, `messageFromPi` | unfolding; C56; codec injectivity |
| C69 | `DLK`, `DLEQ`, `Schnorr` | bijection between nonces and accepting proofs |
| C70, C71 | `shareVerify`, `aggregationVerify` | decision list: every check decided by its specification, in program order |
| C72 | `receiveShare`, `receiveAggregatedShare` | `aggregate_iff`, C22 |
| C73 | `Node.share` | C02 plus the EdDSA key; unfolding of `DLK.prove` and `Signature.new` |
| C74 | `shareVerify`, `aggregationVerify` | FALSE: congruence in the fields read |
| C75 | `shareVerify` | FALSE: copied and affinely transformed shares are `GoodShare`s |
| C76 | `aggregationVerify`, `receiveShare` | FALSE: weighted sum of affine functions of one `gs`; counting for the positive part |
| C77 | `Base64.encode/decode`, `toBase64`, `display`, `debug` | bit-string specification of RFC 4648, shift by 24 bits, byte identities |
| C78 | `step`, `run`, `aggregate` | congruence of `aggregate` for agreeing transcripts, C23, C24, induction on permutations |
| C79 | `decCheck`, `lagrange*` | pairing of the interpolated values; non-degeneracy |
| C80 | `receiveShare`, `DecryptedShare.generate` | FALSE: replacing one encryption keeps a share acceptable; correct slots as partial |
| C81 | `run` against an adaptive strategy | fibre counting per call (C13), union bound, C31 and C79 |
| C82 | derived codecs | FALSE: truncation inside byte arrays panics; safety and stability of the codec combinators; `BlsWire` instantiates the assumptions at BLS12-381 |
| C83 | network of nodes (spec) over receive_* | invariant of all schedules; sums collected by dealer |
| C84 | the same | FALSE: Fibonacci growth of weights; bound s * 2^g |
| C85 | generated keys, table, nodes, dealing, any tree of aggregation, decryption, reconstruction | induction over aggregation plans, on top of C73, C83, C11 |
| C86 | the same with one dealer's draws free | C59 transported through the whole deployment by an exact description of which draws lead to which view and secret |
| C87 | error outcomes of verification, merging and batches | contrapositive of completeness (C12, C21, C47) on top of the decision lists C70, C71 |
| C88 | `Display` texts of the errors (Model/ErrorText.lean) | FALSE: two texts are wrong; texts are injective (decimal numbers can be read off) |
| C89 | `share_pvss` and core aggregation as an additive commitment | uniqueness of interpolation |
| C90 | DLEQ against an adversary with a random oracle (a table on a finite set of byte strings) | resampling of the table at a fresh point, C41 |
| C91 | origin and authenticity of listed contributions | invariant over histories; forgery and collision are conclusions, not assumptions |
| C92 | rejection sampling of `hash_to_field`, `hash_to_group` is unbiased | disjoint products of block sets |
| C93 | DLK proofs of knowledge, key-only Schnorr forgeries | forking lemma by counting tables (`Lemmas/Fork.lean`), C37, C45 |
| C94 | Schnorr signatures against chosen-message attacks | injection from real runs without collision into simulated runs; C93 for the simulation |
| C95 | A share can be simulated from a Diffie–Hellman challenge | bijection of the dealer's draws with the simulator's (interpolation in the exponent, programmed hash) |
| C96 | BLS12-381 meets the assumptions | primality of `p` and of a 448-bit factor of the second cofactor by elliptic-curve certificates (Goldwasser–Kilian, Jacobian arithmetic checked by the kernel); order of the generators; cardinality bound gives cyclic; byte formats by cases on the sign of `y` |
| C97 | dalek satisfies the laws of EdDSA iff no nonce hash is zero | order of the base point is prime (Pocklington chain); clamped scalars are no multiples of it |
| C98 | Batch verification = single verification | false: neutral key, keys with small-order part; counting of weights in the prime-order group |
| C99 | Wrong public half gives the key away | two signatures with one nonce; explicit forger |
| C100 | Ed25519 meets the assumptions on the curve | points in Weierstrass form (Mathlib); birational map to Edwards coordinates is a bijection and a homomorphism; field prime by the curve itself |
| C101 | The repository's tests pass, and for which draws | test functions as model code (`Model/Tests.lean`), outcome by the theorems on the called functions; node tests as aggregation plans (C85) |
| C102 | `hash_to_group` at BLS12-381 is uniform in the right subgroup | exact orders of both curves: points of every prime order dividing `h r`, for squares a point moved by `(x, y) ↦ (β x, y)`, and the bound `2 q + 1`; blocks per point by the flags; fibres of the cofactor map |
| C103 | `rand` of scalars and points, `SRS::setup` at BLS12-381 (`ArkRand`) | programs as prefix-free sets of words; laws of sequencing, blocks and rejection loops in `ENNReal`; every affine point from one coordinate and sign |
| C104 | C13, C48, C81, C85, C86, C101 with scalars drawn by `Scalar::rand` | programs with uniform results (`Lemmas/Uniform.lean`): repetition, pairing, probability = count / total; Bernoulli's inequality |
| C105 | aggregator.rs:102-233, node.rs:65-161, Schnorr, dlk, dleq: what a call reads | two worlds agreeing on the listed inputs give the same call; changing one pairing or one signature verdict refuses an accepted transcript |
| C106 | aggregator.rs:237-267, share.rs:82-140 over any history | invariant: shape of the transcript; a merge keeps the first signed proof and adds weights |
| C107 | aggregator.rs:190-204 for an arbitrary vector of scalars; 166-180 (commented out) | with `comm_i = s_i g2` the product is `e(sum r_i (s_i pk_i - enc_i), g2)`: a linear equation in `r` |
| C108 | lib.rs:46-47, 121-122, 263-267 (derived `Default`, `Ord`), 285-306 | `y = 0` gives `x² = -1`: order four by the Edwards formulas; `verify_strict` refuses small order |
| C109 | lib.rs:285-289 (dalek's `verify_strict`) with SHA-512 as a table | forking lemma (Lemmas/Fork.lean); two equations with one `R`; at most `N/L + 1` strings per residue |
| C110 | lib.rs:270-289 (dalek's `sign`, `verify_strict`) with SHA-512 as a table | two hybrids (Lemmas/Cma.lean): nonces become independent draws, then the signer a simulation; injections between runs count both losses; C109 and Cauchy-Schwarz for the extraction; repeated requests are answered from memory |
| C111 | derived codecs of nizk/dlk, nizk/dleq, signature/schnorr and `Decomp`; `Hash` of decomp.rs:60-65, lib.rs:46-47, 121-122 (Model/Derive.lean) | one structure `Spec.Atom` of laws closed under pairs and renaming; feeds of one length split by `List.append_inj` |
| C112 | wire format of ark-bls12-381 (Model/Ark.lean) | writing by computation, reading from uniqueness for finite points (C96) and a case analysis for infinity |
| C113 | `receive_share`, `receive_aggregated_share` of many aggregators; the network is part of the specification | each aggregator's history is a run of C81; union bound over all calls (`card_fooled`), C31 and C79 for the agreement |
| C114 | the check of aggregator.rs:166-180 (commented out in the code) in front of `receive_share` and `receive_aggregated_share`; guard and network are part of the specification | induction over the calls that pass (`deliverGuarded_eq`, `run_encOk`), then C33_decides and C80_partial; the codeword from `card_fooled` |
| C115 | `Model/Primitives.lean`: BLAKE2s, ChaCha20, SHAKE256, SHA-512, with known answers as examples | backwards induction over the chain of compressions (`absorb_collision`, `absorb_last`) and over the blocks of the sponge (`sponge_inner`), injectivity of its padding, period 2^68 of the generator (`byte_period`), kernel evaluation of hash, generator and cofactor multiplication for the epoch generator; `C115_clamp` states the secret scalar on bytes for every seed |
| C116 | `Model/Ed25519.lean`, `Model/Dalek.lean` | a point of order eight (`edT_order`), the order `8 L` of `B + T` against the bound on the number of points of a Weierstrass curve (`card_ed`), doubling formulas on the Edwards form (`ed_eight_zero`), counting of `y` coordinates modulo p (`card_classes`, `card_edY`), comparison of combinations (`ed_combination_eq`) |
| C117 | `Props/Bind.lean` (variants `Spec.dlkVerify`, `Spec.sigVerify` of the modelled functions) | forking lemma with the statement in the critical point (`fork_crit`), counting of tables in which two look-ups are related (`card_hit_dep`, `card_pairs`) |
| C118 | `Props/Tested.lean` (variant `Spec.tested`: three tests in front of the modelled function) | invariant `Spec.Books` over calls behind the tests; merges agree with checked merges; additivity of the verification equations; simulation with the network of C84 |
| C119 | `prodPairings`, `shareVerify`, `aggregationVerify`, `step`, `run` | a product of pairings as one pairing with the generator (`C119_meaning`); congruence of the functions in the test; C96 for the curve |
| C120 | `Props/Predetermined.lean` (variant `Spec.dlkVerify`), `Spec.weightedGs` | forking lemma applied to the tables with few extracting answers, for every contributor separately; union bound; linear algebra with weights that cannot sum to 0 mod r |
| C121 | `Props/Session.lean` (the modelled `shareVerify`, `share`, `DLK.verify` in the suite `Spec.seated` with longer hash inputs) | injectivity of the serializations; signature on a known digest, an unknown one or a collision; extraction lemma of C120 with seat and statement in the critical point |
| C122 | `Props/Equality.lean` (the modelled `DLEQ.verify`, `DLEQ.prove`, `DLK.prove`, `Schnorr.sign` with a random table) | forking at the verifier's look-up with C41 and its binding part; bijection (nonce, table, spare answer) ↔ (challenge, response, table) |
| C123 | `Props/Strict.lean` (decoders with three more tests, built from the modelled combinators; repairs C55, C82) | `Spec.Inverse` (total and accepting exactly the encodings) is preserved by every combinator |
| C124 | `Props/Cofactor.lean` (verification of votes with the cofactor at Ed25519; repairs C98) | all points in exponents (`ed_decompose`), then a linear condition modulo `L` on the weights |
| C125 | `Props/Repaired.lean` (the repairs C114, C118 and C123 in front of one aggregator that receives bytes) | one invariant (`Keeps`) over the deliveries; the fooled draws are those of C81 and C113 |
| C126 | `Model/ArkProj.lean`: affine and Jacobian coordinates, `mul`, batch inversion, bucket method of ark-ec 0.2 | relation `Spec.Denotes` between coordinates and points preserved by every formula, with the exceptional cases split off; induction over expressions, bits, buckets (`rankSum`) and windows |
| C127 | `Props/Unpredictable.lean` (the modelled `share` and `DLK.verify` with `Spec.tagHash`) | simulation of C95 with the statement in the hash; for fixed draws of the dealer, dealer and adversary together are a prover with k + 1 look-ups for the extraction lemma of C120, and the second run sees the same share; linear algebra in the first group |
| C128 | `Model/ArkFp.lean`: `Fp256`/`Fp384` of ark-ff 0.2 on lists of limbs | value of every loop by induction over the limbs with carries; bound a + p on the running sum of `mul_assign`; binary Euclid keeps b x = u R2 and gcd(u, v) = 1, and u + v decreases; induction over expressions |
| C129 | `Lemmas/ArkLimb.lean`: `LimbFp`, `Fq2L`, the operations of C128 as a field; formulas of `Model/ArkProj.lean` run on it | the formulas commute with maps of fields (`Lemmas/ArkMap.lean`), induction over computations; then C126 and C128 |
| C130 | `Model/EdProj.lean`: points, digits, tables and loops of curve25519-dalek 3 | a denotation of each kind of coordinates by points (`Spec.DenExt` …), one lemma per formula from the addition law on Edwards coordinates (C100); induction over the digit loops with the value of the digits read so far as invariant; powers `p - 2` and `(p - 5)/8` for inversion and square root |
| C131 | `Model/EdLimb.lean`: `FieldElement51` with checked arithmetic (`none` on overflow) | bounds and values of every operation by linear arithmetic on carries; a class of representations (`Lemmas/EdRel.lean`) with three bounds, for which all formulas and loops of C130 are proved once; exact elements and limbs are instances |
| C132 | `Model/EdScalar.lean`: `Scalar52` with checked arithmetic, `check_scalar` | carries and borrows by linear arithmetic; each step of the Montgomery reduction is exact division because `LFACTOR L = -1` modulo `2^52`; `2^260` is invertible modulo the order; signing and both verifications are rewritten call by call |
| C133 | `Props/TextFix.lean`: `Spec.fixedText`, the texts of `Model/ErrorText.lean` with two corrected | a label in front of `=` ends a segment between two `=` of the text, and its end is compared with the fixed text there; C22 and C88_text_partial for the rest |

## Trusted base

* Lean 4.33.0's kernel. Every property theorem depends on at most `propext`, `Classical.choice` and `Quot.sound`;
  the list per theorem is `AXIOMS.txt` (written by `tools/axioms.sh` with `#print axioms`). No own axioms, no `sorry`, no
  `native_decide`, no `bv_decide`.
* The reading of the Rust source: nothing links the model to the code but the citations at each definition.
* The reading of the dependencies (arkworks 0.2, dalek, blake2, sha3, base64, rand), whose source is not in /repo. What is
  assumed about them are the definitions of `Model/Basic`, `Poly`, `Codec`, `Hash`, `Base64` and the law structures in
  `Model/Laws.lean`. A law appears as an explicit hypothesis (`PairLaws`, `EdLaws`, `CodecLaws`, `HashTotal`, …) of each
  theorem that uses it; `Toy.lean` contains one instance satisfying all of them, so they are consistent.
* For BLS12-381 itself (C96, C102) the laws of groups, codecs, scalar decoding and `hash_to_group` are proved from `Model/Ark.lean`
  and `Model/ArkHash.lean`: Mathlib's points of
  the two curves, and the byte formats of ark-ec/ark-ff 0.2 written down from their published source. What remains assumed of
  the curve is that `E::pairing` is bilinear and non-trivial (which bilinear map it is does not matter, C119). `AddCommGroup` of the points is Mathlib's; ark's formulas
  (`Model/ArkProj.lean`) compute it by C126. Its prime fields
  (`Model/ArkFp.lean`, limbs in Montgomery form) compute `ZMod` by C128, and the formulas run on limbs compute the groups by C129; both follow the published source, without its assembly variants.
* For the laws of random draws (C103) the generator is a sequence of independent uniform 32-bit words and `rand` is the
  algorithm of ark-ff/ark-ec 0.2 (`Model/ArkRand.lean`): rejection on masked words, then on the abscissa.
* For ed25519-dalek 1.0.1 the laws `EdLaws` are derived (C97) from `Model/Dalek.lean`, its algorithm over an abstract group with
  point compression and SHA-512, written down from its published source. Curve, group law and compression of Ed25519 are those of
  `Model/Ed25519.lean`; their laws are proved (C100). What remains assumed is that no nonce hash is zero. That the
  coordinates, digits and tables with which the crate computes give the same functions is proved (C130) for `Model/EdProj.lean`,
  with field elements in limbs too (C131, `Model/EdLimb.lean`) and scalars in limbs (C132, `Model/EdScalar.lean`).
* Hypotheses `num_participants ≤ r` (distinct evaluation points) and `< 2^58` (allocation limit for 32-byte
  coefficients) hold in every run that does not abort for lack of memory; C61 gives `2^64 < r` for BLS12-381.

## Properties that are false of the code

For these the full claim is kept as a definition `Cxx_claim`, refuted by `Cxx_false` on a concrete instance, complemented by
theorems that quantify over all inputs (`_forge`, `_maul`, `_poison`, …) and by what does hold (`Cxx_partial`).

| id | cause in the code |
|----|-------------------|
| C16 | `share_verify` checks the pairing only at `share.participant_id` (aggregator.rs) |
| C17 | the signature covers the digest of the decomposition proof only |
| C21 | aggregator.rs:188 `vec![E::Fr::rand(rng); n]` repeats one scalar |
| C33 | consequence of C16 |
| C35 | `aggregate` merges the ids `0..num_participants` only, while verification looks at all contributions |
| C38 | the DLK challenge hashes `g` and the commitment, not the statement |
| C46 | the Schnorr challenge does not hash the public key |
| C55 | BTreeMap decoding accepts repeated and unsorted keys; `GroupAffine::deserialize` ignores `x` when the infinity flag is set |
| C62 | the weights in a received transcript are not bounded |
| C63 | the weights in a received transcript may be zero |
| C74 | neither the proof nor the signature contains a session name, the table, `t`, `g1` or `g2'` |
| C75 | neither the proof nor the signature contains the dealer's id; the DLK statement is not hashed |
| C76 | contributions may be affine functions of an honest `gs` (C75) and the weights are free |
| C80 | consequence of C16 and C21 |
| C82 | lib.rs:104-113, 160-169, 236-245, 341-352 read the bytes of keys and signatures with `unwrap` |
| C84 | share.rs:95-140 adds the weights of both transcripts, and honest nodes that exchange transcripts add the same contributions again and again |
| C88 | errors.rs:39 labels the fourth number `self.num_participants`, but share.rs:96-101 passes `other.num_participants`; pvss.rs:36-38 reports missing commitments as "Share's encryptions vector is empty" |
| C98 | lib.rs:291-306 calls `dalek::verify_batch`, which has no small-order check and no cofactor, while `verify` uses `verify_strict` |

## Changes to property statements

Three statements were made more precise after the proofs showed the first wording to be too coarse:

* C03: the case `n = t+1` without overflow checks holds only if the dependency's sampler wraps; the first wording said
  "n >= t+1 without overflow checks".
* C14: the same for `n = degree+1`; the first wording was "always accepts without them".
* C59: the last sentence (the all-zero draw is refused by dealing) was added.

## Not modelled

Side channels, copies of secret keys other than the dropped value and removal of the (non-volatile) zeroing stores by the
compiler (C66 is about the `Drop` code as written), OS randomness quality, computational hardness (discrete log,
collision resistance; C94, C109 and C110 reduce forgeries to it), running time (C105 counts what a call reads), allocation failure below the capacity limit, thread scheduling
(the crate has none), internals of arkworks/dalek/blake2/sha3/base64 beyond the functional behaviour stated above.
