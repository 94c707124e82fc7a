import Verif.Samples.FirstProps
import Verif.Search.FirstRT
import Verif.MT.SeedInj

/-!
# Lemmas for C119: the calls of `search` in `mt2.cpp` and the numbers of the parameter source
-/

namespace MTT.MTDC

open Polynomial PIS Search Temper MTRec

variable {n r : ℕ}

/-! ### The specification -/

/-- Two sequences agree in the `32 n - r` bits that make up a state of the recurrence. -/
def SameState (P : MTPar 32) (x y : ℕ → BitVec 32) : Prop :=
  (∀ i, P.r ≤ i → (x 0).getLsbD i = (y 0).getLsbD i) ∧ ∀ j, 1 ≤ j → j < P.n → x j = y j

/-- The recurrence of the Mersenne Twister with these parameters has the greatest possible period: a state that is not zero
comes back exactly after the multiples of `2^mexp - 1` steps. -/
def Full (mexp pos : ℕ) (mata : BitVec 32) : Prop :=
  let P : MTPar 32 := ⟨mexp / 32 + 1, pos, 32 - mexp % 32, mata⟩
  ∀ x, IsSeq P x → ¬ SameState P x (fun _ => 0) → ∀ N, SameState P (fun k => x (k + N)) x ↔ 2 ^ mexp - 1 ∣ N

/-! ### Periods -/

theorem sameState_iff {P : MTPar 32} (hr : P.r < 32) (x y : ℕ → BitVec 32) :
    SameState P x y ↔ seqState P x 0 = seqState P y 0 := by
  rw [MT.seqState_eq_iff]
  refine and_congr_left fun _ => ⟨fun h => ?_, fun h i hi => ?_⟩
  · apply BitVec.eq_of_getLsbD_eq
    intro i hi
    rw [hi_bit, hi_bit, h _ (by omega)]
  · by_cases h32 : i < 32
    · have := congrArg (fun v => v.getLsbD (i - P.r)) h
      rw [hi_bit, hi_bit] at this
      simpa [show P.r + (i - P.r) = i by omega, show i - P.r + P.r = i by omega, show i - P.r < 32 - P.r by omega] using this
    · rw [BitVec.getLsbD_of_ge _ _ (by omega), BitVec.getLsbD_of_ge _ _ (by omega)]

theorem seqState_zero (P : MTPar 32) : seqState P (fun _ => 0) 0 = 0 := by
  unfold seqState
  rw [hi_zero]
  rfl

theorem seqState_shift (P : MTPar 32) (x : ℕ → BitVec 32) (N : ℕ) : seqState P (fun k => x (k + N)) 0 = seqState P x N := by
  unfold seqState
  refine Prod.ext ?_ ?_
  · show Wd.of (hi P.r (x (0 + N))) = _
    rw [Nat.zero_add]
  · funext j
    show Wd.of (x (0 + 1 + j + N)) = Wd.of (x (N + 1 + j))
    rw [show 0 + 1 + (j : ℕ) + N = N + 1 + j by omega]

theorem full_iff {mexp : ℕ} (hn : n = mexp / 32 + 1) (hr : r = 32 - mexp % 32) (hr32 : r < 32) (p : Par) (h1 : 1 ≤ p.pos)
    (h2 : p.pos < n) :
    Full mexp p.pos p.mata ↔ ∀ z : S n r, z ≠ 0 → ∀ N, (T n r p ^ N) z = z ↔ 2 ^ mexp - 1 ∣ N := by
  have hP : (rec n r p).OK := ⟨h1, h2, hr32⟩
  unfold Full
  rw [← hn, ← hr]
  dsimp only
  have key : ∀ x, IsSeq (rec n r p) x → ∀ N, SameState (rec n r p) (fun k => x (k + N)) x ↔
      (T n r p ^ N) (seqState (rec n r p) x 0) = seqState (rec n r p) x 0 := fun x hx N => by
    have e : (T n r p ^ N) (seqState (rec n r p) x 0) = seqState (rec n r p) x (0 + N) := T_pow_seqState hP hx 0 N
    rw [sameState_iff hr32, seqState_shift, e, Nat.zero_add]
  constructor
  · intro h z hz N
    obtain ⟨x, hx, rfl⟩ := exists_seqState hP z
    rw [← key x hx]
    exact h x hx (by rw [sameState_iff hr32, seqState_zero]; exact hz) N
  · intro h x hx h0 N
    rw [sameState_iff hr32, seqState_zero] at h0
    rw [key x hx]
    exact h _ h0 N

theorem maxPeriod_iff {mexp : ℕ} (hm : mexp + r = 32 * n) (hr : r < 32) (hn : 3 ≤ n) (id : ℤ) {s : St} (hs : SInv n r id s) :
    MaxPeriod (searchOps mexp) (SInv n r id) par (den n r) (par s) mexp ↔
      ∀ z : S n r, z ≠ 0 → ∀ N, (T n r (par s) ^ N) z = z ↔ 2 ^ mexp - 1 ∣ N := by
  have F := family hm hr hn id
  have h1 : 1 ≤ mexp := by omega
  constructor
  · intro h z hz N
    have h0 := seed_ne_zero hs.inv
    have hper : ∀ k, (T n r (par s) ^ k) (den n r (seed 1 s)) = den n r (seed 1 s) ↔ 2 ^ mexp - 1 ∣ k := fun k => by
      rw [← h (seed 1 s) (F.seed_inv s hs) (F.seed_par s hs) h0 k,
        (stateAt_spec (F.lin (par s)) (g := seed 1 s) ⟨F.seed_inv s hs, F.seed_par s hs⟩ k).2]
    obtain ⟨k, -, rfl⟩ := orbit_all h1 F.dim h0 hper hz
    rw [← Module.End.mul_apply, ← pow_add]
    constructor
    · intro e
      rw [← hper]
      have e2 := congrArg (fun u => (T n r (par s) ^ ((2 ^ mexp - 1) * k - k)) u) e
      have hle : k ≤ (2 ^ mexp - 1) * k := Nat.le_mul_of_pos_left _ (by have := Nat.one_lt_two_pow (n := mexp) (by omega); omega)
      simp only [← Module.End.mul_apply, ← pow_add] at e2
      rw [show (2 ^ mexp - 1) * k - k + (N + k) = N + (2 ^ mexp - 1) * k by omega, show (2 ^ mexp - 1) * k - k + k = (2 ^ mexp - 1) * k by omega,
        pow_add, Module.End.mul_apply, (hper _).2 (Dvd.intro _ rfl)] at e2
      exact e2
    · intro hd
      rw [Nat.add_comm, pow_add, Module.End.mul_apply, (hper N).2 hd]
  · intro h t ht hp h0 k
    rw [(stateAt_spec (F.lin (par s)) (g := t) ⟨ht, hp⟩ k).2]
    exact h _ h0 k

/-- Some output after `seed(1)` is odd, whatever the masks. -/
theorem odd_output {mexp : ℕ} (hm : mexp + r = 32 * n) (hr : r < 32) (hn : 3 ≤ n) (id : ℤ) {s : St} (hs : SInv n r id s)
    (h2 : 2 ≤ s.pos) (hfull : ∀ z : S n r, z ≠ 0 → ∀ N, (T n r (par s) ^ N) z = z ↔ 2 ^ mexp - 1 ∣ N) :
    ∃ i, (outAt (searchOps mexp).gen ((searchOps mexp).seedOne s) i).getLsbD 0 = true := by
  have F := family hm hr hn id
  have h1 : 1 ≤ mexp := by omega
  have h0 := seed_ne_zero hs.inv
  by_contra hno
  rw [not_exists] at hno
  have htop : cyc (T n r (par s)) (den n r (seed 1 s)) = ⊤ := cyc_top h1 F.dim h0 (hfull _ h0)
  have : Finite (BitVec 32) := Finite.of_injective BitVec.toFin fun _ _ h => BitVec.eq_of_toFin_eq h
  obtain ⟨v, hv⟩ : ∃ v, temper (par s) v = 1 := (Finite.injective_iff_surjective.1 (temper_injective (par s))) 1
  obtain ⟨y, hy⟩ := newest_surjective (rec_ok hs.inv) h2 (Wd.of v)
  have e1 : newWord (P := rec n r (par s)) y = v := congrArg Wd.val hy
  have hle : cyc (T n r (par s)) (den n r (seed 1 s)) ≤ LinearMap.ker (coord 32 0 (O n r (par s))) := by
    refine Submodule.span_le.2 ?_
    rintro _ ⟨j, rfl⟩
    have := congrFun (bitAt_eq (F.lin (par s)) (s := seed 1 s) ⟨F.seed_inv s hs, F.seed_par s hs⟩ F.wpos) j
    refine this.symm.trans ?_
    exact if_neg (hno j)
  have hyk : y ∈ LinearMap.ker (coord 32 0 (O n r (par s))) := hle (htop ▸ Submodule.mem_top)
  have e2 : bits (temper (par s) (newWord (P := rec n r (par s)) y)) 31 = 0 := hyk
  rw [e1, hv] at e2
  revert e2
  unfold bits
  decide

theorem qualifies_iff {mexp : ℕ} (hm : mexp + r = 32 * n) (hn : n = mexp / 32 + 1) (hr : r = 32 - mexp % 32) (hr32 : r < 32)
    (hn3 : 3 ≤ n) (id : ℤ) {s : St} (hs : SInv n r id s) (h2 : 2 ≤ s.pos) :
    Qualifies (searchOps mexp) (SInv n r id) par (den n r) (par s) ↔ Full mexp s.pos s.mata := by
  have e := full_iff hn hr hr32 (par s) hs.inv.pos1 hs.inv.posn
  have e' := maxPeriod_iff hm hr32 hn3 id hs
  unfold Qualifies
  constructor
  · intro h
    exact e.2 (e'.1 h.1)
  · intro h
    have hf := e.1 h
    exact ⟨e'.2 hf, s, hs, rfl, odd_output hm hr32 hn3 id hs h2 hf⟩

/-! ### The tempering search -/

theorem kept_congr {σ : Type} {w : ℕ} {R R' : TemperOps σ w} {B : BBPar} {s s' : σ}
    (h : ∀ v < B.limit, ∀ p, R.delta (v + 1) (setAll R p B.size 0 s) = R'.delta (v + 1) (setAll R' p B.size 0 s')) :
    ∀ k ≤ B.limit, kept R B s k = kept R' B s' k
  | 0, _ => rfl
  | k + 1, hk => by
    have e : ∀ para i, candidate R B s k para i = candidate R' B s' k para i := fun para i => by
      unfold candidate
      simp only [h k (by omega)]
    unfold kept generated
    rw [kept_congr h k (by omega)]
    congr 1
    congr 1
    funext para
    congr 1
    funext i
    exact e para i

theorem measure_same (veq veq' : ℕ → ℕ) {mexp : ℕ} (hm : mexp + r = 32 * n) (h1 : 1 ≤ mexp) {s s' : St} (hs : Inv n r s)
    (hs' : Inv n r s') (hp : par s = par s') (hrev : s.rev = false)
    (hfull : ∀ z : S n r, z ≠ 0 → ∀ N, (T n r (par s) ^ N) z = z ↔ 2 ^ mexp - 1 ∣ N) (h0 : den n r s ≠ 0)
    (h0' : den n r s' ≠ 0) {L : ℕ} (hL1 : 1 ≤ L) (hL2 : L ≤ 32) : measure veq L s = measure veq' L s' := by
  have e1 : s.mexp = mexp := by have := hs.mexp; omega
  have e2 : s'.mexp = mexp := by have := hs'.mexp; omega
  have hrev' : s'.rev = false := (congrArg Par.rev hp).symm.trans hrev
  have hdim : Module.finrank (ZMod 2) (S n r) = mexp := by rw [finrank_S hs, e1]
  obtain ⟨d, a1, k, a2, a3⟩ := measure_spec veq hs (by omega) hL1 hL2
  obtain ⟨d', b1, k', b2, b3⟩ := measure_spec veq' hs' (by omega) hL1 hL2
  rw [cyc_top h1 hdim h0 (hfull _ h0), hrev] at a2
  rw [← hp, cyc_top h1 hdim h0' (hfull _ h0'), hrev'] at b2
  rw [a1, b1, a3, b3, e1, e2]
  congr 1
  refine Finset.sum_congr rfl fun v hv => ?_
  rw [Finset.mem_Icc] at hv
  rw [(a2 v hv.1 hv.2).unique (b2 v hv.1 hv.2)]

/-- The masks and the defect that the tempering search and `get_all_equidist` give for a new object, seeded with 1, with these
parameters of the recurrence. -/
def best (mexp pos : ℕ) (mata : BitVec 32) : Option (BitVec 32 × BitVec 32 × ℤ) :=
  (ctor mexp 0 1 pos mata fun _ => 0).bind fun s =>
    (bestBits (temperOps (fun _ => 0) mexp) bb s).bind fun t =>
      (measure (fun _ => 0) 32 t).map fun d => (t.maskb, t.maskc, d)

/-- They are found from every other object with these parameters that is not zero. -/
theorem best_spec {mexp : ℕ} (hm : mexp + r = 32 * n) (hn : n = mexp / 32 + 1) (hr : r = 32 - mexp % 32) (hr32 : r < 32)
    (h1 : 1 ≤ mexp) {s : St} (hs : Inv n r s) (hrev : s.rev = false) (h0 : den n r s ≠ 0)
    (hfull : ∀ z : S n r, z ≠ 0 → ∀ N, (T n r (par s) ^ N) z = z ↔ 2 ^ mexp - 1 ∣ N) :
    ∃ b c d, best mexp s.pos s.mata = some (b, c, d) ∧ ∀ veq,
      bestBits (temperOps veq mexp) bb s = some { s with maskb := b, maskc := c } ∧
      measure veq 32 { s with maskb := b, maskc := c } = some d := by
  obtain ⟨g, hg⟩ : ∃ g : St, g = seed 1 ⟨mexp, mexp / 32 + 1, 0, fun _ => 0, s.pos, s.mata, 0, 0,
      (~~~ (0 : BitVec 32)) <<< r, ~~~ ((~~~ (0 : BitVec 32)) <<< r), 0, false⟩ := ⟨_, rfl⟩
  have hc : ctor mexp 0 1 s.pos s.mata (fun _ => 0) = some g := by
    unfold ctor
    dsimp only
    rw [show (mexp / 32 + 1) * 32 - mexp = r by omega, if_pos hr32, hg]
  have hb : Inv n r ⟨mexp, mexp / 32 + 1, 0, fun _ => 0, s.pos, s.mata, 0, 0,
      (~~~ (0 : BitVec 32)) <<< r, ~~~ ((~~~ (0 : BitVec 32)) <<< r), 0, false⟩ :=
    ⟨hn.symm, hm, hr32, by show 0 < n; omega, rfl, rfl, hs.pos1, hs.posn⟩
  have hgi : Inv n r g := by rw [hg]; exact (seed_inv hb 1).1
  have hg0 : den n r g ≠ 0 := by rw [hg]; exact seed_ne_zero hb
  have hgp : par g = ⟨s.pos, s.mata, 0, 0, false⟩ := by rw [hg]; rfl
  have hgrev : g.rev = false := congrArg Par.rev hgp
  have hsame : ∀ veq veq' (p : ℕ → BitVec 32), ∀ L, 1 ≤ L → L ≤ 32 →
      measure veq L { s with maskb := p 0, maskc := p 1 } = measure veq' L { g with maskb := p 0, maskc := p 1 } :=
    fun veq veq' p L hL1 hL2 => measure_same veq veq' hm h1 (masks_inv hs (p 0) (p 1)) (masks_inv hgi (p 0) (p 1)) (by
      have e1 : g.pos = s.pos := congrArg Par.pos hgp
      have e2 : g.mata = s.mata := congrArg Par.mata hgp
      show Par.mk s.pos s.mata (p 0) (p 1) s.rev = Par.mk g.pos g.mata (p 0) (p 1) g.rev
      rw [e1, e2, hrev, hgrev]) hrev hfull h0 hg0 hL1 hL2
  have run : ∀ veq (u : St), Inv n r u → u.rev = false → ∃ q, (kept (temperOps veq mexp) bb u bb.limit).head? = some q ∧
      bestBits (temperOps veq mexp) bb u = some { u with maskb := q.param 0, maskc := q.param 1 } := by
    intro veq u hu hur
    obtain ⟨-, q, k2, k3⟩ := bestBits_correct (bbContract (n := n) (r := r) veq hm h1) (by decide) (by decide)
      (by decide) (by decide) u hu
    have hres : (temperOps veq mexp).resetRev u = u := by
      show resetReverse u = u
      unfold resetReverse
      rw [← hur]
    refine ⟨q, by rw [hres] at k2; exact k2, ?_⟩
    rw [k3, hres]
    have : setAll (temperOps veq mexp) q.param bb.size 0 u =
      { u with maskb := q.param 0, maskc := q.param 1 } := setAll_eq ..
    rw [this]
    show some (resetReverse { u with maskb := q.param 0, maskc := q.param 1 }) = _
    unfold resetReverse
    dsimp only
    rw [← hur]
  obtain ⟨q, q1, q2⟩ := run (fun _ => 0) g hgi hgrev
  obtain ⟨d, hd, -⟩ := measure_le (fun _ => 0) (masks_inv hgi (q.param 0) (q.param 1)) (by show 1 ≤ g.mexp; have := hgi.mexp; omega)
    (L := 32) (by omega) le_rfl
  refine ⟨q.param 0, q.param 1, d, ?_, fun veq => ?_⟩
  · unfold best
    rw [hc, Option.bind_some, q2, Option.bind_some, hd]
    rfl
  · obtain ⟨q', q1', q2'⟩ := run veq s hs hrev
    have hk : kept (temperOps veq mexp) bb s bb.limit = kept (temperOps (fun _ => 0) mexp) bb g bb.limit := by
      refine kept_congr (fun v hv p => ?_) _ le_rfl
      have hv' : v < 15 := hv
      have e1 : setAll (temperOps veq mexp) p bb.size 0 s = { s with maskb := p 0, maskc := p 1 } := setAll_eq ..
      have e2 : setAll (temperOps (fun _ => 0) mexp) p bb.size 0 g = { g with maskb := p 0, maskc := p 1 } := setAll_eq ..
      rw [e1, e2]
      exact hsame veq _ p (v + 1) (by omega) (by omega)
    rw [hk, q1] at q1'
    injection q1' with q1'
    subst q1'
    exact ⟨q2', (hsame veq _ q.param 32 (by omega) le_rfl).trans hd⟩

/-! ### One call of `search` -/

/-- Parameter set number `i` of the source: `pos` and `mata`. -/
def setAt (mexp : ℕ) (id : ℤ) (f : ℕ → BitVec 32) (i : ℕ) : ℕ × BitVec 32 :=
  ((f (2 * i)).toNat % (mexp / 32 - 1) + 2,
    if 0 ≤ id then (f (2 * i + 1) &&& 0xffff0000) ||| (BitVec.ofInt 32 id &&& 0xffff) else f (2 * i + 1))

theorem rtCall_first {mps : MPS} (hmps : MinPolySeqSpec mps) {prim : ℕ → (ZMod 2)[X] → Option Bool}
    {mexp : ℕ} (hprim : PrimOK prim mexp) (hm : mexp + r = 32 * n) (hn : n = mexp / 32 + 1) (hr : r = 32 - mexp % 32)
    (hr32 : r < 32) (hn3 : 3 ≤ n) (id : ℤ) (veq : ℕ → ℕ) (fuel : ℕ) (g : St)
    (hg : SInv n r id { g with pos := 2 }) (f : ℕ → BitVec 32) :
    (∀ m < fuel * (1000 * mexp), Full mexp (setAt mexp id f m).1 (setAt mexp id f m).2 →
      (∀ i < m, ¬ Full mexp (setAt mexp id f i).1 (setAt mexp id f i).2) →
      ∃ o b c d, rtCall mps prim veq fuel mexp g f = some (.found o) ∧ o.src = from_ f (2 * (m + 1)) ∧
        SInv n r id o.rand ∧ best mexp (setAt mexp id f m).1 (setAt mexp id f m).2 = some (b, c, d) ∧ o.delta = d ∧
        lineOf o.rand o.delta = ⟨mexp, id, (setAt mexp id f m).1, (setAt mexp id f m).2, b, c, d⟩) ∧
    ((∀ i < fuel * (1000 * mexp), ¬ Full mexp (setAt mexp id f i).1 (setAt mexp id f i).2) →
      rtCall mps prim veq fuel mexp g f = none) := by
  have h1 : 1 ≤ mexp := by omega
  have F := family hm hr32 hn3 id
  have hcall : rtCall mps prim veq fuel mexp g f = rtCall mps prim veq fuel mexp { g with pos := 2 } f := by
    unfold rtCall
    exact rtSearch_congr (D := searchOps mexp) (s := g) (s' := { g with pos := 2 }) (fun src => by
      show (setUpParam _ _ g).map _ = Option.map _ _
      rw [← setUpParam_pos _ _ g 2]) (by show 1 ≤ mexp; omega) _ _ _
  rw [hcall]
  obtain ⟨s0, hs0⟩ : ∃ s0 : St, s0 = { g with pos := 2 } := ⟨_, rfl⟩
  rw [← hs0] at hg ⊢
  have hK : Kept n id s0.maskb s0.maskc s0 := ⟨hg.inv.size, hg.id, rfl, rfl, hg.rev⟩
  have hD := draws (r := r) (mexp := mexp) hn3 id s0.maskb s0.maskc
  obtain ⟨k1, k2⟩ := findLoop_first hmps F hprim hD (1000 * mexp) fuel ⟨s0, f, 0, 0⟩ hg hK
  have hset : ∀ i, (cand n id s0.maskb s0.maskc (from_ f (2 * i))).pos = (setAt mexp id f i).1 ∧
      (cand n id s0.maskb s0.maskc (from_ f (2 * i))).mata = (setAt mexp id f i).2 := fun i => by
    refine ⟨?_, rfl⟩
    show (f (2 * i)).toNat % (n - 2) + 2 = (f (2 * i)).toNat % (mexp / 32 - 1) + 2
    rw [show n - 2 = mexp / 32 - 1 by omega]
  have hq : ∀ i, Qualifies (searchOps mexp) (SInv n r id) par (den n r) (cand n id s0.maskb s0.maskc (from_ f (2 * i))) ↔
      Full mexp (setAt mexp id f i).1 (setAt mexp id f i).2 := fun i => by
    obtain ⟨s', d1, -, d3⟩ := hD.draw s0 (from_ f (2 * i)) hg hK
    have hs' := F.setUp_inv _ _ _ _ hg d1
    have e1 : s'.pos = (setAt mexp id f i).1 := (congrArg Par.pos d3).trans (hset i).1
    have e2 : s'.mata = (setAt mexp id f i).2 := (congrArg Par.mata d3).trans (hset i).2
    rw [← d3, qualifies_iff hm hn hr hr32 hn3 id hs' (by rw [e1]; show 2 ≤ _ + 2; omega), e1, e2]
  constructor
  · intro m hlt hA hno
    obtain ⟨st, j1, j2, j3, j4⟩ := k1 m hlt ((hq m).2 hA) fun i hi => (hq i).not.2 (hno i hi)
    have ho : Origin (searchOps mexp) (SInv n r id) par (den n r) (T n r) st :=
      findLoop_origin F hmps hprim _ fuel _ hg j1
    have e1 : st.rand.pos = (setAt mexp id f m).1 := (congrArg Par.pos j2).trans (hset m).1
    have e2 : st.rand.mata = (setAt mexp id f m).2 := (congrArg Par.mata j2).trans (hset m).2
    have hfull := (full_iff hn hr hr32 (par st.rand) ho.inv.inv.pos1 ho.inv.inv.posn).1 (by
      show Full mexp st.rand.pos st.rand.mata
      rw [e1, e2]; exact hA)
    have h0 : den n r st.rand ≠ 0 := by
      obtain ⟨q, src, r0, -, -, hrand, hpar, hr0⟩ := ho.from_setUp
      rw [hrand]
      have hp : par ((searchOps mexp).seedOne r0) = par st.rand := ((seed_inv hr0.inv 1).2).trans hpar.symm
      exact stateAt_ne_zero F (s := (searchOps mexp).seedOne r0) (F.seed_inv _ hr0)
        (by rw [hp]; exact ho.max) (seed_ne_zero hr0.inv) _
    obtain ⟨b, c, d, b1, b2⟩ := best_spec hm hn hr hr32 h1 ho.inv.inv ho.inv.rev h0 hfull
    obtain ⟨b3, b4⟩ := b2 veq
    refine ⟨⟨{ st.rand with maskb := b, maskc := c }, st.src, st.poly, polyWeight st.poly, d⟩, b, c, d, ?_, j3, ?_, ?_, rfl, ?_⟩
    · unfold rtCall rtSearch
      have j1' : findLoop mps (searchOps mexp) prim (1000 * (searchOps mexp).gen.bitSize) fuel ⟨s0, f, 0, 0⟩ =
        some (.ret true st) := j1
      rw [j1']
      dsimp only
      rw [if_pos rfl]
      dsimp only
      rw [b3]
      dsimp only
      rw [b4]
    · exact ⟨masks_inv ho.inv.inv b c, ho.inv.rev, ho.inv.id⟩
    · rw [← e1, ← e2]; exact b1
    · have hmx : st.rand.mexp = mexp := by have := ho.inv.inv.mexp; omega
      show (⟨st.rand.mexp, st.rand.id, st.rand.pos, st.rand.mata, b, c, d⟩ : Line) = _
      rw [hmx, ho.inv.id, e1, e2]
  · intro hno
    have j1 : findLoop mps (searchOps mexp) prim (1000 * (searchOps mexp).gen.bitSize) fuel ⟨s0, f, 0, 0⟩ = none :=
      k2 fun i hi => (hq i).not.2 (hno i hi)
    unfold rtCall rtSearch
    rw [j1]

end MTT.MTDC
