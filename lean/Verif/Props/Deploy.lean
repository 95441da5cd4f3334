import Verif.Props.Network
import Verif.Props.Share
import Verif.Model.Schnorr

/-!
# A whole deployment, from key generation to reconstruction: C85

The tests of /repo/src/modified_scrape/node.rs (lines 195-624: key generation, `Node::new`, `share`, `receive_share`,
`receive_aggregated_share`, comparison of the transcripts) for every number of parties, every threshold, all random draws and
every order and tree of aggregation, followed by decryption and reconstruction.
-/

open Finset Polynomial

set_option linter.unusedSectionVars false

namespace Verif

variable {r : ℕ} [Fact r.Prime] {G1 G2 K : Type}
  [AddCommGroup G1] [DecidableEq G1] [AddCommGroup G2] [DecidableEq G2] [CommMonoid K] [DecidableEq K]
  [Module (ZMod r) G1] [Module (ZMod r) G2]

/-- All random draws of a deployment: for each party the stream used for its encryption key, its signing seed, and the stream
used for dealing. -/
structure Spec.Draws (r : ℕ) where
  key : ℕ → Rng r
  seed : ℕ → Bytes 32
  deal : ℕ → Rng r

/-- Party `i` with freshly generated keys. node.rs:205-224, 270-286 -/
def Spec.party (S : Suite r G1 G2 K) (cfg : Config G1 G2) (x : Spec.Draws r) (i : ℕ) : Dealer r G1 :=
  let kp := (Schnorr.generateKeypair (Schnorr.fromGenerator cfg.srs.g1) (x.key i)).1
  let ed := generateKeypair S.ed (x.seed i)
  ⟨kp.1, ed.2, ⟨i, kp.2, ed.1⟩⟩

/-- The participant table of the deployment. node.rs:338-350 -/
def Spec.table (S : Suite r G1 G2 K) (cfg : Config G1 G2) (x : Spec.Draws r) : BMap (Participant G1) :=
  BMap.ofList ((List.range cfg.numParticipants).map fun i => (i, (Spec.party S cfg x i).participant))

/-- The node of party `i`. node.rs:352-384 -/
def Spec.nodeOf (S : Suite r G1 G2 K) (cfg : Config G1 G2) (x : Spec.Draws r) (i : ℕ) : Node r G1 G2 :=
  Node.new cfg (Spec.party S cfg x i) (Spec.table S cfg x)

/-- How an aggregator came to its transcript: it is fresh; or it received the share of dealer `i`; or it received the
transcript of an aggregator with a history of its own. -/
inductive Spec.Plan (r : ℕ) where
  | fresh
  | share (p : Spec.Plan r) (rng : Rng r) (i : ℕ)
  | merge (p : Spec.Plan r) (rng : Rng r) (q : Spec.Plan r)

/-- The dealers whose shares went in, with repetitions. -/
def Spec.Plan.leaves : Spec.Plan r → List ℕ
  | .fresh => []
  | .share p _ i => p.leaves ++ [i]
  | .merge p _ q => p.leaves ++ q.leaves

/-- The aggregator after the plan, or the first failure. -/
noncomputable def Spec.Plan.exec (S : Suite r G1 G2 K) (m : Mode) (a : Aggregator r G1 G2) (shs : ℕ → PVSSShare r G1 G2) :
    Spec.Plan r → Res PVSSError (Aggregator r G1 G2)
  | .fresh => .ok a
  | .share p rng i => do
    let b ← Spec.Plan.exec S m a shs p
    (b.receiveShare S m rng (shs i)).1
    .ok (b.receiveShare S m rng (shs i)).2
  | .merge p rng q => do
    let b ← Spec.Plan.exec S m a shs p
    let c ← Spec.Plan.exec S m a shs q
    (b.receiveAggregatedShare S m rng c.tx).1
    .ok (b.receiveAggregatedShare S m rng c.tx).2

/-- Conditions for dealing and aggregating: room for the degree test, distinct evaluation points, and no dealer who draws the zero
polynomial. -/
structure Spec.Dealable (cfg : Config G1 G2) (x : Spec.Draws r) : Prop where
  deg : cfg.degree + 2 ≤ cfg.numParticipants
  n_le : cfg.numParticipants ≤ r
  cap : cfg.numParticipants < 2 ^ 58
  deal : ∀ i < cfg.numParticipants, ∃ k ≤ cfg.degree, x.deal i k ≠ 0

/-- Conditions on the deployment: those for dealing and aggregating, and invertible keys. -/
structure Spec.Deployable (cfg : Config G1 G2) (x : Spec.Draws r) : Prop extends Spec.Dealable cfg x where
  key : ∀ i < cfg.numParticipants, x.key i 0 ≠ 0

theorem party_id (S : Suite r G1 G2 K) (cfg : Config G1 G2) (x : Spec.Draws r) (i : ℕ) :
    (Spec.party S cfg x i).participant.id = i := rfl

theorem table_get (S : Suite r G1 G2 K) (cfg : Config G1 G2) (x : Spec.Draws r) (i : ℕ) (hi : i < cfg.numParticipants) :
    (Spec.table S cfg x).get i = some (Spec.party S cfg x i).participant := by
  have hnd : (((List.range cfg.numParticipants).map fun i => (i, (Spec.party S cfg x i).participant)).map Prod.fst).Nodup := by
    rw [List.map_map]
    simpa [Function.comp_def] using List.nodup_range
  unfold Spec.table
  rw [BMap.get_ofList_nodup hnd]
  exact BMap.lookupL_eq_some_of_nodup hnd (List.mem_map.2 ⟨i, List.mem_range.2 hi, rfl⟩)

theorem table_get_some (S : Suite r G1 G2 K) (cfg : Config G1 G2) (x : Spec.Draws r) (i : ℕ) (q : Participant G1)
    (h : (Spec.table S cfg x).get i = some q) : q = (Spec.party S cfg x i).participant := by
  have hnd : (((List.range cfg.numParticipants).map fun i => (i, (Spec.party S cfg x i).participant)).map Prod.fst).Nodup := by
    rw [List.map_map]
    simpa [Function.comp_def] using List.nodup_range
  unfold Spec.table at h
  rw [BMap.get_ofList_nodup hnd] at h
  obtain ⟨j, -, hj⟩ := List.mem_map.1 (BMap.lookupL_eq_some_mem h)
  obtain ⟨rfl, rfl⟩ := Prod.mk.inj hj
  rfl

theorem party_pk (S : Suite r G1 G2 K) (cfg : Config G1 G2) (x : Spec.Draws r) (i : ℕ) :
    (Spec.party S cfg x i).participant.pkSig = x.key i 0 • cfg.srs.g1 := mulRepr_eq_smul _ _

theorem deploy_dealer (S : Suite r G1 G2 K) (cfg : Config G1 G2) (x : Spec.Draws r) (i : ℕ) (hi : i < cfg.numParticipants) :
    Spec.GoodDealer S.ed (Spec.nodeOf S cfg x i) :=
  ⟨x.seed i, (Spec.party S cfg x i).participant, rfl, table_get S cfg x i hi, rfl⟩

/-- **C85** (dealing). In every deployment every dealer's `share` succeeds. -/
theorem C85_share (S : Suite r G1 G2 K) (hH : HashTotal S.hash) (hE : EdLaws S.ed) (m : Mode) (cfg : Config G1 G2)
    (x : Spec.Draws r) (hx : Spec.Dealable cfg x) :
    ∃ shs : ℕ → PVSSShare r G1 G2, ∀ i < cfg.numParticipants, ∃ rng',
      (Spec.nodeOf S cfg x i).share S m (x.deal i) = .ok (shs i, rng') := by
  have h : ∀ i, ∃ sh, i < cfg.numParticipants → ∃ rng', (Spec.nodeOf S cfg x i).share S m (x.deal i) = .ok (sh, rng') := by
    intro i
    by_cases hi : i < cfg.numParticipants
    · obtain ⟨y, hy⟩ := (C73 S hH m (Spec.nodeOf S cfg x i) (x.deal i) (by
        have := hx.deg; have := hx.cap; show cfg.degree + 1 < 2 ^ 58; omega)).1.2
        ⟨by have := hx.deg; show 1 ≤ cfg.numParticipants; omega,
          fun j hj h => (by
            have h2 : (Spec.table S cfg x).get j = none := h
            rw [table_get S cfg x j hj] at h2
            cases h2), hi, hx.deal i hi,
          (hE.keypair_ok (x.seed i))⟩
      exact ⟨y.1, fun _ => ⟨y.2, hy⟩⟩
    · exact ⟨⟨0, ⟨[], []⟩, ⟨⟨(0, 0, 0), 0⟩, ⟨x.seed 0, x.seed 0⟩⟩⟩, fun h => absurd h hi⟩
  choose shs h using h
  exact ⟨shs, h⟩

/-- The published shares of a deployment with their polynomials. -/
noncomputable def Spec.dealtPoly (cfg : Config G1 G2) (x : Spec.Draws r) (i : ℕ) : (ZMod r)[X] :=
  ∑ k ∈ range (cfg.degree + 1), monomial k (x.deal i k)

theorem dealtPoly_coeff (cfg : Config G1 G2) (x : Spec.Draws r) (i k : ℕ) :
    (Spec.dealtPoly cfg x i).coeff k = if k ≤ cfg.degree then x.deal i k else 0 := by
  unfold Spec.dealtPoly
  rw [finsetSum_coeff]
  simp only [coeff_monomial]
  rw [Finset.sum_ite_eq' (range (cfg.degree + 1)) k fun j => x.deal i j]
  simp

theorem dealtPoly_zero (cfg : Config G1 G2) (x : Spec.Draws r) (i : ℕ) : (Spec.dealtPoly cfg x i).eval 0 = x.deal i 0 := by
  rw [← coeff_zero_eq_eval_zero, dealtPoly_coeff, if_pos (Nat.zero_le _)]

/-- The shares `shs` are what the dealers of the deployment published. -/
def Spec.Dealt (S : Suite r G1 G2 K) (m : Mode) (cfg : Config G1 G2) (x : Spec.Draws r) (shs : ℕ → PVSSShare r G1 G2) : Prop :=
  ∀ i < cfg.numParticipants, ∃ rng', (Spec.nodeOf S cfg x i).share S m (x.deal i) = .ok (shs i, rng')

/-- The published shares, each with the polynomial the dealer drew. -/
noncomputable def Spec.publishedOf (cfg : Config G1 G2) (x : Spec.Draws r) (shs : ℕ → PVSSShare r G1 G2) :
    List (PVSSShare r G1 G2 × (ZMod r)[X]) :=
  (List.range cfg.numParticipants).map fun i => (shs i, Spec.dealtPoly cfg x i)

theorem deploy_keyTable (S : Suite r G1 G2 K) (cfg : Config G1 G2) (x : Spec.Draws r) :
    Spec.KeyTable (Spec.table S cfg x) cfg.numParticipants fun i => x.key i 0 • cfg.srs.g1 :=
  fun i hi => ⟨_, table_get S cfg x i hi, party_pk S cfg x i⟩

theorem dealt_good (S : Suite r G1 G2 K) (hE : EdLaws S.ed) (m : Mode) (cfg : Config G1 G2) (x : Spec.Draws r)
    (hx : Spec.Dealable cfg x) (shs : ℕ → PVSSShare r G1 G2) (hs : Spec.Dealt S m cfg x shs) (i : ℕ)
    (hi : i < cfg.numParticipants) :
    (shs i).participantId = i ∧ Spec.GoodShare S cfg (Spec.table S cfg x) (shs i) (Spec.dealtPoly cfg x i) := by
  obtain ⟨rng', h⟩ := hs i hi
  obtain ⟨h1, p, hp⟩ := share_good S hE m _ (deploy_dealer S cfg x i hi) _ _ _ h
  obtain ⟨-, ⟨p', hc, hsh⟩, hgs, -⟩ := C73_contents S m (Spec.nodeOf S cfg x i) (x.deal i) rng' (shs i)
    (fun j => x.key j 0 • cfg.srs.g1) (fun j q hq => by rw [table_get_some S cfg x j q hq, party_pk])
    (by have := hx.deg; have := hx.cap; show cfg.degree + 1 < 2 ^ 58; omega) h
  have hpp : p' = Spec.dealtPoly cfg x i := by
    ext k
    rw [hc k, dealtPoly_coeff]
    rfl
  subst hpp
  refine ⟨h1, hp.id_lt, ⟨_, deploy_keyTable S cfg x, hsh⟩, ?_, hp.signed⟩
  rw [dealtPoly_zero]
  exact hgs

/-- **C85** (setting). The published shares of a deployment are correct shares of the polynomials with the drawn coefficients,
one per party: the conclusions about networks of honest nodes (C83, C84) hold for every deployment and every schedule. -/
theorem C85_setting (S : Suite r G1 G2 K) (hE : EdLaws S.ed) (m : Mode) (cfg : Config G1 G2) (x : Spec.Draws r)
    (hx : Spec.Dealable cfg x) (shs : ℕ → PVSSShare r G1 G2) (hs : Spec.Dealt S m cfg x shs) :
    Spec.Setting S cfg (Spec.table S cfg x) (Spec.publishedOf cfg x shs) := by
  refine ⟨fun i hi => ?_, hx.n_le, hx.cap, hx.deg, fun e he => ?_, ?_⟩
  · rw [table_get S cfg x i hi]; simp
  · obtain ⟨i, hi, rfl⟩ := List.mem_map.1 he
    exact (dealt_good S hE m cfg x hx shs hs i (List.mem_range.1 hi)).2
  · have : (Spec.publishedOf cfg x shs).map (fun e => e.1.participantId) = List.range cfg.numParticipants := by
      unfold Spec.publishedOf
      rw [List.map_map]
      conv_rhs => rw [← List.map_id (List.range cfg.numParticipants)]
      exact List.map_congr_left fun i hi => (dealt_good S hE m cfg x hx shs hs i (List.mem_range.1 hi)).1
    rw [this]
    exact List.nodup_range

theorem sum_map_count (n : ℕ) (l : List ℕ) (hl : ∀ i ∈ l, i < n) (f : ℕ → ZMod r) :
    ((List.range n).map fun i => (l.count i : ZMod r) * f i).sum = (l.map f).sum := by
  induction l with
  | nil => simp
  | cons a l ih =>
    rw [List.map_cons, List.sum_cons, ← ih fun i hi => hl i (by simp [hi])]
    have ha : a < n := hl a (by simp)
    have hsplit : ∀ i ∈ List.range n, ((List.count i (a :: l) : ℕ) : ZMod r) * f i =
        (if i = a then f i else 0) + (List.count i l : ZMod r) * f i := by
      intro i _
      by_cases h : i = a
      · subst h; rw [List.count_cons_self, if_pos rfl]; push_cast; ring
      · rw [List.count_cons_of_ne (fun h' => h h'.symm), if_neg h, zero_add]
    rw [List.map_congr_left hsplit, List.sum_map_add]
    congr 1
    have hn : ∀ l : List ℕ, l.Nodup → a ∈ l → (l.map fun i => if i = a then f i else 0).sum = f a := by
      intro l hnd hal
      rw [← List.sum_toFinset _ hnd, Finset.sum_ite_eq' l.toFinset a f, if_pos (List.mem_toFinset.2 hal)]
    rw [hn _ List.nodup_range (List.mem_range.2 ha)]

/-- What a plan leads to. -/
theorem exec_honest {S : Suite r G1 G2 K} (hS : PairLaws S) {cfg : Config G1 G2} {ps : BMap (Participant G1)}
    {E : List (PVSSShare r G1 G2 × (ZMod r)[X])} (hE : Spec.Setting S cfg ps E) (shs : ℕ → PVSSShare r G1 G2) (n : ℕ)
    (hshs : ∀ i < n, (shs i).participantId = i ∧ ∃ e ∈ E, e.1 = shs i) (m : Mode) (p : Spec.Plan r)
    (hp : ∀ i ∈ p.leaves, i < n) :
    ((∀ i, p.leaves.count i < 2 ^ 64) → ∃ a, p.exec S m (Aggregator.new cfg ps) shs = .ok a ∧
      p.exec S .checked (Aggregator.new cfg ps) shs = .ok a ∧
      a.config = cfg ∧ a.participants = ps ∧ (∃ l, Spec.HonestTx S cfg ps a.tx l ∧ l ⊆ E) ∧
      ∀ i, Spec.weightOf a.tx i = p.leaves.count i) ∧
    (¬ (∀ i, p.leaves.count i < 2 ^ 64) → p.exec S .checked (Aggregator.new cfg ps) shs = .panic) := by
  induction p with
  | fresh =>
    refine ⟨fun _ => ⟨_, rfl, rfl, rfl, rfl, ⟨[], .empty, by simp⟩, fun i => rfl⟩, fun h => absurd (fun i => ?_) h⟩
    simp [Spec.Plan.leaves]
  | share p rng i ih =>
    simp only [Spec.Plan.leaves, List.mem_append, List.mem_singleton] at hp
    obtain ⟨ih1, ih2⟩ := ih fun j hj => hp j (Or.inl hj)
    obtain ⟨hid, e, he, hei⟩ := hshs i (hp i (Or.inr rfl))
    have hcount : ∀ j, (Spec.Plan.share p rng i).leaves.count j = p.leaves.count j + if j = i then 1 else 0 := by
      intro j
      simp only [Spec.Plan.leaves, List.count_append, List.count_singleton]
      by_cases h : j = i
      · simp [h]
      · rw [if_neg h, if_neg (by simpa using fun h' : i = j => h h'.symm)]
    by_cases hsub : ∀ j, p.leaves.count j < 2 ^ 64
    · obtain ⟨a, h1, h2, h3, h4, h5, h6⟩ := ih1 hsub
      have hstep := fun m => honest_step S hS m a E (by rw [h3, h4]; exact hE.published) (by rw [h3, h4]; exact hE.registered)
        (by rw [h3]; exact hE.n_le) (by rw [h3]; exact hE.cap) (by rw [h3]; exact hE.deg) (by rw [h3, h4]; exact h5)
        (.share rng (shs i)) ⟨e, he, hei⟩
      have hw : ∀ j, Spec.weightOf a.tx j + Spec.opWeight (.share rng (shs i)) j = (Spec.Plan.share p rng i).leaves.count j := by
        intro j
        rw [h6, hcount, Spec.opWeight, hid]
      simp only [hw] at hstep
      have hexec : ∀ m, p.exec S m (Aggregator.new cfg ps) shs = .ok a →
          (Spec.Plan.share p rng i).exec S m (Aggregator.new cfg ps) shs =
            (a.step S m (.share rng (shs i))).1.bind fun _ => .ok (a.step S m (.share rng (shs i))).2 := by
        intro m h
        show (p.exec S m (Aggregator.new cfg ps) shs).bind _ = _
        rw [h]
        rfl
      rw [hexec .checked h2, hexec m h1]
      refine ⟨fun hf => ?_, fun hf => ?_⟩
      · obtain ⟨k1, k2, k3, k4⟩ := (hstep m).1 hf
        obtain ⟨-, kc, kp⟩ := C19 S m a (.share rng (shs i))
        refine ⟨(a.step S m (.share rng (shs i))).2, ?_, ?_, by rw [kc, h3], by rw [kp, h4], ?_, k4⟩
        · rw [k2]; rfl
        · rw [← k1, k2]; rfl
        · rw [h3, h4] at k3; exact k3
      · rw [(hstep .checked).2 hf]
        rfl
    · refine ⟨fun hf => absurd (fun j => ?_) hsub, fun _ => ?_⟩
      · have := hf j
        rw [hcount] at this
        omega
      · show (p.exec S .checked (Aggregator.new cfg ps) shs).bind _ = _
        rw [ih2 hsub]
        rfl
  | merge p rng q ihp ihq =>
    simp only [Spec.Plan.leaves, List.mem_append] at hp
    obtain ⟨ihp1, ihp2⟩ := ihp fun j hj => hp j (Or.inl hj)
    obtain ⟨ihq1, ihq2⟩ := ihq fun j hj => hp j (Or.inr hj)
    have hcount : ∀ j, (Spec.Plan.merge p rng q).leaves.count j = p.leaves.count j + q.leaves.count j := by
      intro j
      simp only [Spec.Plan.leaves, List.count_append]
    by_cases hsub : ∀ j, p.leaves.count j < 2 ^ 64
    · obtain ⟨a, h1, h2, h3, h4, h5, h6⟩ := ihp1 hsub
      by_cases hsubq : ∀ j, q.leaves.count j < 2 ^ 64
      · obtain ⟨b, g1, g2, g3, g4, g5, g6⟩ := ihq1 hsubq
        have hstep := fun m => honest_step S hS m a E (by rw [h3, h4]; exact hE.published) (by rw [h3, h4]; exact hE.registered)
          (by rw [h3]; exact hE.n_le) (by rw [h3]; exact hE.cap) (by rw [h3]; exact hE.deg) (by rw [h3, h4]; exact h5)
          (.agg rng b.tx) (by rw [h3, h4]; exact g5)
        have hw : ∀ j, Spec.weightOf a.tx j + Spec.opWeight (.agg rng b.tx) j = (Spec.Plan.merge p rng q).leaves.count j := by
          intro j
          rw [h6, hcount, Spec.opWeight, g6]
        simp only [hw] at hstep
        have hexec : ∀ m, p.exec S m (Aggregator.new cfg ps) shs = .ok a → q.exec S m (Aggregator.new cfg ps) shs = .ok b →
            (Spec.Plan.merge p rng q).exec S m (Aggregator.new cfg ps) shs =
              (a.step S m (.agg rng b.tx)).1.bind fun _ => .ok (a.step S m (.agg rng b.tx)).2 := by
          intro m h h'
          show (p.exec S m (Aggregator.new cfg ps) shs).bind _ = _
          rw [h]
          show (q.exec S m (Aggregator.new cfg ps) shs).bind _ = _
          rw [h']
          rfl
        rw [hexec .checked h2 g2, hexec m h1 g1]
        refine ⟨fun hf => ?_, fun hf => ?_⟩
        · obtain ⟨k1, k2, k3, k4⟩ := (hstep m).1 hf
          obtain ⟨-, kc, kp⟩ := C19 S m a (.agg rng b.tx)
          refine ⟨(a.step S m (.agg rng b.tx)).2, ?_, ?_, by rw [kc, h3], by rw [kp, h4], ?_, k4⟩
          · rw [k2]; rfl
          · rw [← k1, k2]; rfl
          · rw [h3, h4] at k3; exact k3
        · rw [(hstep .checked).2 hf]
          rfl
      · refine ⟨fun hf => absurd (fun j => ?_) hsubq, fun _ => ?_⟩
        · have := hf j
          rw [hcount] at this
          omega
        · show (p.exec S .checked (Aggregator.new cfg ps) shs).bind _ = _
          rw [h2]
          show (q.exec S .checked (Aggregator.new cfg ps) shs).bind _ = _
          rw [ihq2 hsubq]
          rfl
    · refine ⟨fun hf => absurd (fun j => ?_) hsub, fun _ => ?_⟩
      · have := hf j
        rw [hcount] at this
        omega
      · show (p.exec S .checked (Aggregator.new cfg ps) shs).bind _ = _
        rw [ihp2 hsub]
        rfl

theorem published_mem (S : Suite r G1 G2 K) (hE : EdLaws S.ed) (m : Mode) (cfg : Config G1 G2) (x : Spec.Draws r)
    (hx : Spec.Dealable cfg x) (shs : ℕ → PVSSShare r G1 G2) (hs : Spec.Dealt S m cfg x shs) :
    ∀ i < cfg.numParticipants, (shs i).participantId = i ∧ ∃ e ∈ Spec.publishedOf cfg x shs, e.1 = shs i :=
  fun i hi => ⟨(dealt_good S hE m cfg x hx shs hs i hi).1, (shs i, Spec.dealtPoly cfg x i),
    List.mem_map.2 ⟨i, List.mem_range.2 hi, rfl⟩, rfl⟩

/-- **C85**. In every deployment, along every plan of aggregation in which no dealer's share is used `2^64` times: every call
returns `Ok` in every build mode; the weight of a dealer is the number of times its share went in; every party decrypts its
entry with its generated key; the decryption passes the masked check against the commitment, for every mask; and any `t + 1` or
more decryptions reconstruct the sum of the first draws of the dealers that went in, in G1 and in the target group. -/
theorem C85 (S : Suite r G1 G2 K) (hS : PairLaws S) (hE : EdLaws S.ed) (md m : Mode) (cfg : Config G1 G2) (x : Spec.Draws r)
    (hx : Spec.Deployable cfg x) (shs : ℕ → PVSSShare r G1 G2) (hs : Spec.Dealt S md cfg x shs) (p : Spec.Plan r)
    (hp : ∀ i ∈ p.leaves, i < cfg.numParticipants) (hw : ∀ i, p.leaves.count i < 2 ^ 64) :
    let secret := (p.leaves.map fun i => x.deal i 0).sum
    ∃ a : Aggregator r G1 G2, p.exec S m (Aggregator.new cfg (Spec.table S cfg x)) shs = .ok a ∧
    (∀ i, Spec.weightOf a.tx i = p.leaves.count i) ∧
    ∃ d : ℕ → DecryptedShare G1,
      (∀ i < cfg.numParticipants,
        (DecryptedShare.generate a.tx.core.encs (Spec.party S cfg x i).skSig i : Res PVSSError _) = .ok (d i) ∧
        ∃ c, a.tx.core.comms[i]? = some c ∧ ∀ ρ, Spec.DecCheck S cfg.srs.g1 cfg.srs.g2 ρ c (d i).dec) ∧
      ∀ ids, Spec.Selection cfg.numParticipants cfg.degree ids →
        lagrangeG1 m (ids.map fun i => (d i).dec) (ids.map (Spec.point r)) cfg.degree = .ok (secret • cfg.srs.g1) ∧
        ∀ epoch, lagrangeGt (r := r) m (ids.map fun i => S.pair (d i).dec epoch) (ids.map fun i => i + 1) cfg.degree =
          .ok (S.pair (secret • cfg.srs.g1) epoch) := by
  intro secret
  have hset := C85_setting S hE md cfg x hx.toDealable shs hs
  obtain ⟨a, h1, -, h3, h4, ⟨l, hl, hlE⟩, h6⟩ :=
    (exec_honest hS hset shs cfg.numParticipants (published_mem S hE md cfg x hx.toDealable shs hs) m p hp).1 hw
  refine ⟨a, h1, h6, ?_⟩
  have hk := deploy_keyTable S cfg x
  have hsh := honest_shares hl hk
  have hsec : (Spec.totalPoly l).eval 0 = secret := by
    rw [eval_totalPoly hset.published hl hlE]
    unfold Spec.weightedSecret Spec.publishedOf
    rw [List.map_map]
    refine Eq.trans ?_ (sum_map_count cfg.numParticipants p.leaves hp fun i => x.deal i 0)
    congr 1
    refine List.map_congr_left fun i hi => ?_
    simp only [Function.comp_def]
    rw [(dealt_good S hE md cfg x hx.toDealable shs hs i (List.mem_range.1 hi)).1, h6, dealtPoly_zero]
  have henc : ∀ i < cfg.numParticipants, a.tx.core.encs[i]? =
      some (x.key i 0 • ((Spec.totalPoly l).eval (Spec.point r i) • cfg.srs.g1)) := by
    intro i hi
    have hi' : i < a.tx.core.encs.length := by rw [hsh.encs_length]; exact hi
    rw [List.getElem?_eq_getElem hi', hsh.enc i hi', smul_comm]
  refine ⟨fun i => ⟨(Spec.totalPoly l).eval (Spec.point r i) • cfg.srs.g1, i⟩, fun i hi => ⟨?_, ?_⟩, fun ids hsel => ?_⟩
  · exact ((C05 a.tx.core.encs (x.key i 0) i).2.1 _).2 ⟨hx.key i hi, rfl, henc i hi⟩
  · have hi' : i < a.tx.core.comms.length := by rw [hsh.comms_length]; exact hi
    refine ⟨_, List.getElem?_eq_getElem hi', fun ρ => (decCheck_iff hS _ _ _ _ _).2 ?_⟩
    rw [hsh.comm i hi', hS.smul_comm]
  · have hdec : Spec.Decrypted a.tx.core.encs (fun i => x.key i 0) ids
        (ids.map fun i => ⟨(Spec.totalPoly l).eval (Spec.point r i) • cfg.srs.g1, i⟩) := by
      unfold Spec.Decrypted
      rw [List.forall₂_map_right_iff, List.forall₂_same]
      exact fun i hi => ⟨rfl, henc i (hsel.lt i hi)⟩
    obtain ⟨k1, k2, -⟩ := C11 S hS m cfg _ a.tx l hl _ hk hx.n_le (fun i => x.key i 0) ids hsel
      (fun i hi => ⟨hx.key i (hsel.lt i hi), rfl⟩) _ hdec
    rw [hsec] at k1 k2
    simp only [List.map_map, Function.comp_def] at k1 k2
    exact ⟨k1, k2⟩

/-- **C85** (agreement). Two nodes whose plans use the same dealers the same number of times hold equal transcripts, whatever
the orders, the trees and the random draws. -/
theorem C85_agree (S : Suite r G1 G2 K) (hS : PairLaws S) (hE : EdLaws S.ed) (md m m' : Mode) (cfg : Config G1 G2)
    (x : Spec.Draws r) (hx : Spec.Dealable cfg x) (shs : ℕ → PVSSShare r G1 G2) (hs : Spec.Dealt S md cfg x shs)
    (p q : Spec.Plan r) (hp : ∀ i ∈ p.leaves, i < cfg.numParticipants) (hw : ∀ i, p.leaves.count i < 2 ^ 64)
    (hpq : p.leaves.Perm q.leaves) :
    ∃ a : Aggregator r G1 G2, p.exec S m (Aggregator.new cfg (Spec.table S cfg x)) shs = .ok a ∧
      q.exec S m' (Aggregator.new cfg (Spec.table S cfg x)) shs = .ok a := by
  have hset := C85_setting S hE md cfg x hx shs hs
  obtain ⟨a, h1, -, h3, h4, ⟨l, hl, hlE⟩, h6⟩ :=
    (exec_honest hS hset shs cfg.numParticipants (published_mem S hE md cfg x hx shs hs) m p hp).1 hw
  obtain ⟨b, g1, -, g3, g4, ⟨l', hl', hlE'⟩, g6⟩ :=
    (exec_honest hS hset shs cfg.numParticipants (published_mem S hE md cfg x hx shs hs) m' q
      (fun i hi => hp i (hpq.mem_iff.2 hi))).1 (fun i => by rw [← hpq.count_eq i]; exact hw i)
  have htx : a.tx = b.tx := honest_agree hset.published hset.registered hl hl' hlE hlE'
    fun i => by rw [h6, g6, hpq.count_eq i]
  refine ⟨a, h1, ?_⟩
  rw [g1]
  congr 1
  calc b = ⟨b.config, b.participants, b.tx⟩ := rfl
    _ = ⟨a.config, a.participants, a.tx⟩ := by rw [htx, h3, h4, g3, g4]
    _ = a := rfl

/-- **C85** (limit). In a build with overflow checks the bound on repetitions is exact: a plan that uses the share of some dealer
`2^64` times or more panics. -/
theorem C85_limit (S : Suite r G1 G2 K) (hS : PairLaws S) (hE : EdLaws S.ed) (md : Mode) (cfg : Config G1 G2)
    (x : Spec.Draws r) (hx : Spec.Dealable cfg x) (shs : ℕ → PVSSShare r G1 G2) (hs : Spec.Dealt S md cfg x shs)
    (p : Spec.Plan r) (hp : ∀ i ∈ p.leaves, i < cfg.numParticipants) :
    (∃ a, p.exec S .checked (Aggregator.new cfg (Spec.table S cfg x)) shs = .ok a) ↔ ∀ i, p.leaves.count i < 2 ^ 64 := by
  have hset := C85_setting S hE md cfg x hx shs hs
  obtain ⟨h1, h2⟩ := exec_honest hS hset shs cfg.numParticipants (published_mem S hE md cfg x hx shs hs) .checked p hp
  constructor
  · rintro ⟨a, ha⟩
    by_contra hn
    rw [h2 hn] at ha
    cases ha
  · intro hw
    obtain ⟨a, ha, -⟩ := h1 hw
    exact ⟨a, ha⟩

/-! ### Examples -/

namespace Toy

/-- Draws for four parties with threshold 1: party `i` deals `(i + 1) + 2 X`. -/
def draws : Spec.Draws 13 := ⟨fun i _ => (i : ZMod 13) + 1, fun i => pad32 [UInt8.ofNat i], fun i k => if k = 0 then (i : ZMod 13) + 1 else 2⟩

theorem deployable : Spec.Deployable cfg draws := by
  refine ⟨⟨by decide, by decide, by decide, ?_⟩, ?_⟩
  · intro i hi
    exact ⟨1, by decide, by show (2 : ZMod 13) ≠ 0; decide⟩
  · intro i hi
    have : i < 4 := hi
    interval_cases i <;> decide

/-- The plan of `test_aggregation_with_4_nodes`: shares 2 and 3, then a transcript of shares 0 and 1. -/
def planC (ρ : Rng 13) : Spec.Plan 13 :=
  .merge (.share (.share .fresh ρ 2) ρ 3) ρ (.share (.share .fresh ρ 0) ρ 1)

/-- The plan of the other subcommittee. -/
def planA (ρ : Rng 13) : Spec.Plan 13 :=
  .merge (.share (.share .fresh ρ 0) ρ 1) ρ (.share (.share .fresh ρ 2) ρ 3)

end Toy

/-- Non-vacuity of C85: four parties deal; both subcommittees end with the same transcript, and parties 1 and 3 reconstruct
`1 + 2 + 3 + 4 = 10`. -/
example (ρ ρ' : Rng 13) : ∃ shs a d1 d3, Spec.Dealt (Toy.suite 13) .checked Toy.cfg Toy.draws shs ∧
    (Toy.planA ρ).exec (Toy.suite 13) .checked (Aggregator.new Toy.cfg (Spec.table (Toy.suite 13) Toy.cfg Toy.draws)) shs = .ok a ∧
    (Toy.planC ρ').exec (Toy.suite 13) .checked (Aggregator.new Toy.cfg (Spec.table (Toy.suite 13) Toy.cfg Toy.draws)) shs = .ok a ∧
    (DecryptedShare.generate a.tx.core.encs (2 : ZMod 13) 1 : Res PVSSError _) = .ok d1 ∧
    (DecryptedShare.generate a.tx.core.encs (4 : ZMod 13) 3 : Res PVSSError _) = .ok d3 ∧
    lagrangeG1 .checked [d1.dec, d3.dec] [Spec.point 13 1, Spec.point 13 3] 1 = .ok ((10 : ZMod 13) • Toy.cfg.srs.g1) := by
  obtain ⟨shs, hs⟩ := C85_share (Toy.suite 13) (Toy.hashTotal 13) Toy.edLaws .checked Toy.cfg Toy.draws Toy.deployable.toDealable
  have hlA : (Toy.planA ρ).leaves = [0, 1, 2, 3] := rfl
  have hlC : (Toy.planC ρ').leaves = [2, 3, 0, 1] := rfl
  have hlt : ∀ i ∈ (Toy.planA ρ).leaves, i < Toy.cfg.numParticipants := by rw [hlA]; decide
  have hw : ∀ i, (Toy.planA ρ).leaves.count i < 2 ^ 64 := fun i =>
    lt_of_le_of_lt List.count_le_length (by rw [hlA]; decide)
  obtain ⟨a, ha, hc⟩ := C85_agree (Toy.suite 13) (Toy.pairLaws 13) Toy.edLaws .checked .checked .checked Toy.cfg Toy.draws
    Toy.deployable.toDealable shs hs (Toy.planA ρ) (Toy.planC ρ') hlt hw (by rw [hlA, hlC]; decide)
  obtain ⟨a', ha', -, d, hd, hrec⟩ := C85 (Toy.suite 13) (Toy.pairLaws 13) Toy.edLaws .checked .checked Toy.cfg Toy.draws
    Toy.deployable shs hs (Toy.planA ρ) hlt hw
  rw [ha] at ha'
  obtain rfl := Res.ok.inj ha'
  refine ⟨shs, a, d 1, d 3, hs, ha, hc, ?_, ?_, ?_⟩
  · have := (hd 1 (by decide)).1
    rwa [show (Spec.party (Toy.suite 13) Toy.cfg Toy.draws 1).skSig = 2 by decide] at this
  · have := (hd 3 (by decide)).1
    rwa [show (Spec.party (Toy.suite 13) Toy.cfg Toy.draws 3).skSig = 4 by decide] at this
  · have := (hrec [1, 3] ⟨by decide, by decide, by decide, by decide⟩).1
    rw [hlA] at this
    exact this

end Verif
