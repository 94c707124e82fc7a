import Verif.Search.Lemmas
import Verif.Spec.Word

/-!
# C32, C33, C34, C55, C56: the recursion searches
-/

namespace MTT.Search

open Polynomial PIS

section Minpoly

variable {σ S : Type} {w : ℕ} [AddCommGroup S] [Module (ZMod 2) S]
  {G : GenOps σ w} {Inv : σ → Prop} {den : σ → S}
  {T : S →ₗ[ZMod 2] S} {O : S →ₗ[ZMod 2] V}

/-- **C32.**  For a linear generator in a state that some polynomial of degree at most `size` annihilates
(for `size` the dimension of the state space this is every state), `minpoly` with output bit `pos` returns,
without undefined shifts, the minimal polynomial of the whole infinite sequence of that bit, and leaves the
generator `2*size` steps further on. -/
theorem minpoly_correct {mps : MPS} (hm : MinPolySeqSpec mps) (h : LinGen G Inv den T O) {s : σ}
    (hs : Inv s) {pos : ℕ} (hp : pos < w) {stateSize : ℤ} {size : ℕ}
    (hsize : size = if stateSize ≤ 0 then G.bitSize else stateSize.toNat)
    {χ : (ZMod 2)[X]} (hχ : χ ≠ 0) (hann : aeval T χ (den s) = 0) (hdeg : χ.natDegree ≤ size) :
    ∃ p, minpoly mps G pos stateSize s = some (stateAt G s (2 * size), p) ∧
      IsSeqMinpoly p (bitAt G s pos) := by
  unfold minpoly
  dsimp only
  rw [← hsize, collect_spec G hp]
  refine ⟨_, rfl, ?_⟩
  have hA : Ann χ (bitAt G s pos) := by rw [bitAt_eq h hs hp]; exact ann_outSeq _ _ hann
  have := minPolySeq_correct hm hχ hdeg hA
  convert this using 2
  funext i
  simp

/-- **C32**, the usual call: the state space has dimension `bitSize()`. -/
theorem minpoly_dim [Module.Finite (ZMod 2) S] {mps : MPS} (hm : MinPolySeqSpec mps)
    (h : LinGen G Inv den T O) {s : σ} (hs : Inv s) {pos : ℕ} (hp : pos < w)
    (hdim : Module.finrank (ZMod 2) S ≤ G.bitSize) :
    ∃ p, minpoly mps G pos 0 s = some (stateAt G s (2 * G.bitSize), p) ∧
      IsSeqMinpoly p (bitAt G s pos) := by
  obtain ⟨h1, h2, h3⟩ := charpoly_hyps T (den s)
  exact minpoly_correct hm h hs hp (by simp) h1.ne_zero h2 (h3.le.trans hdim)

/-- A polynomial annihilates the sequence of bit `pos` of every state (spec of C55). -/
def AnnAll (G : GenOps σ w) (s : σ) (q : (ZMod 2)[X]) : Prop := ∀ pos, pos < w → Ann q (bitAt G s pos)

/-- On a finite space an injective linear map returns every vector to itself. -/
theorem exists_period [Finite S] (hT : Function.Injective T) (x : S) : ∃ N, 1 ≤ N ∧ (T ^ N) x = x := by
  obtain ⟨i, j, hij, h⟩ := Finite.exists_ne_map_eq_of_infinite (fun i : ℕ => (T ^ i) x)
  have key : ∀ i j : ℕ, i < j → (T ^ i) x = (T ^ j) x → ∃ N, 1 ≤ N ∧ (T ^ N) x = x := by
    intro i j hlt h
    refine ⟨j - i, by omega, ?_⟩
    have hinj : Function.Injective ((T ^ i : S →ₗ[ZMod 2] S)) := by
      rw [Module.End.coe_pow]; exact hT.iterate i
    apply hinj
    rw [← Module.End.mul_apply, ← pow_add, show i + (j - i) = j by omega, h]
  rcases Nat.lt_or_gt_of_ne hij with h' | h'
  · exact key i j h' h
  · exact key j i h' h.symm

theorem period_mul {x : S} {N : ℕ} (h : (T ^ N) x = x) (k : ℕ) : (T ^ (N * k)) x = x := by
  induction k with
  | zero => simp
  | succ k ih => rw [Nat.mul_succ, pow_add, Module.End.mul_apply, h, ih]

theorem ann_stateAt [Finite S] (h : LinGen G Inv den T O) (hT : Function.Injective T) {s : σ} (hs : Inv s)
    {pos : ℕ} (hp : pos < w) (m : ℕ) (q : (ZMod 2)[X]) :
    Ann q (bitAt G (stateAt G s m) pos) ↔ Ann q (bitAt G s pos) := by
  obtain ⟨N, hN1, hN⟩ := exists_period hT (den s)
  have hper : ∀ i, bitAt G s pos (N * (m + 1) + i) = bitAt G s pos i := by
    intro i
    rw [bitAt_eq h hs hp]
    show coord w pos O ((T ^ (N * (m + 1) + i)) (den s)) = coord w pos O ((T ^ i) (den s))
    rw [add_comm, pow_add, Module.End.mul_apply, period_mul hN]
  have hbig : m ≤ N * (m + 1) := by nlinarith
  constructor
  · intro ha i
    have := ha (N * (m + 1) - m + i)
    rw [← this]
    apply Finset.sum_congr rfl
    intro j _
    rw [bitAt_shift, ← hper (i + j)]
    congr 2
    omega
  · intro ha i
    rw [← ha (m + i)]
    apply Finset.sum_congr rfl
    intro j _
    rw [bitAt_shift]
    congr 2
    omega

theorem charPolyLoop_spec [Module.Finite (ZMod 2) S] [Finite S] {mps : MPS} (hm : MinPolySeqSpec mps)
    (h : LinGen G Inv den T O) (hT : Function.Injective T) {s : σ} (hs : Inv s)
    (hdim : Module.finrank (ZMod 2) S ≤ G.bitSize) {μ : (ZMod 2)[X]} (hμ : IsVecMinpoly T (den s) μ)
    {p₀ : (ZMod 2)[X]} (_ : p₀ ∣ μ) :
    ∀ (k i m : ℕ) (lcm : (ZMod 2)[X]), i + k = w → lcm ∣ μ →
      (∀ q, lcm ∣ q ↔ p₀ ∣ q ∧ ∀ pos, pos < i → Ann q (bitAt G s pos)) →
      ∃ m' r, charPolyLoop mps G k i (stateAt G s m) lcm = some (stateAt G s m', r) ∧ r ∣ μ ∧
        ∀ q, r ∣ q ↔ p₀ ∣ q ∧ AnnAll G s q := by
  have hμann : ∀ q pos, pos < w → μ ∣ q → Ann q (bitAt G s pos) := fun q pos hp hq => by
    rw [bitAt_eq h hs hp]; exact ann_outSeq _ _ ((hμ.2 q).2 hq)
  have hμdeg : μ.natDegree ≤ G.bitSize := by
    obtain ⟨h1, h2, h3⟩ := charpoly_hyps T (den s)
    exact (natDegree_le_of_dvd ((hμ.2 _).1 h2) h1.ne_zero).trans (h3.le.trans hdim)
  intro k
  induction k with
  | zero =>
    intro i m lcm hik hlcm hinv
    refine ⟨m, lcm, rfl, hlcm, fun q => (hinv q).trans ?_⟩
    have : i = w := by omega
    subst this
    rfl
  | succ k ih =>
    intro i m lcm hik hlcm hinv
    have hl0 : lcm ≠ 0 := fun h0 => hμ.1 (by rw [h0] at hlcm; exact zero_dvd_iff.1 hlcm)
    unfold charPolyLoop
    by_cases hd : Period.deg lcm = G.bitSize
    · rw [if_pos hd]
      refine ⟨m, lcm, rfl, hlcm, fun q => ⟨fun hq => ⟨((hinv q).1 hq).1, fun pos hp => ?_⟩, fun hq =>
        (hinv q).2 ⟨hq.1, fun pos hp => hq.2 pos (by omega)⟩⟩⟩
      have heq : lcm = μ := by
        rw [Period.deg_of_ne hl0] at hd
        obtain ⟨c, hc⟩ := hlcm
        have hc0 : c ≠ 0 := fun h0 => hμ.1 (by rw [hc, h0, mul_zero])
        have hdd := congrArg natDegree hc
        rw [natDegree_mul hl0 hc0] at hdd
        have hd' : lcm.natDegree = G.bitSize := by exact_mod_cast hd
        have hc1 : c = 1 := (monic_of_ne hc0).natDegree_eq_zero.1 (by omega)
        rw [hc, hc1, mul_one]
      exact hμann q pos hp (heq ▸ hq)
    · rw [if_neg hd]
      have hinvm : Inv (stateAt G s m) := (stateAt_spec h hs m).1
      obtain ⟨p, e1, e2⟩ := minpoly_dim hm h hinvm (pos := i) (by omega) hdim
      rw [e1]
      obtain ⟨st, f1, f2, f3, f4, -, -⟩ := Util.LCM_correct
        (fun v => if v = 0 then lcm else p) 0 0 1 (by simp [hl0])
      simp only [if_true, one_ne_zero, if_false] at f2 f3 f4
      simp only [f1]
      rw [← stateAt_add]
      have hpann : ∀ q, p ∣ q ↔ Ann q (bitAt G s i) := fun q => by
        rw [← ann_stateAt h hT hs (by omega) m]
        exact ⟨fun hq => e2.2.1.of_dvd hq, e2.2.2 q⟩
      apply ih (i + 1) _ (st 0) (by omega)
      · exact f4 μ hlcm ((hpann μ).2 (hμann μ i (by omega) (dvd_refl _)))
      · intro q
        constructor
        · intro hq
          obtain ⟨g1, g2⟩ := (hinv q).1 (f2.trans hq)
          refine ⟨g1, fun pos hpos => ?_⟩
          rcases Nat.lt_succ_iff_lt_or_eq.1 hpos with hlt | heq
          · exact g2 pos hlt
          · subst heq; exact (hpann q).1 (f3.trans hq)
        · rintro ⟨g1, g2⟩
          exact f4 q ((hinv q).2 ⟨g1, fun pos hpos => g2 pos (by omega)⟩)
            ((hpann q).2 (g2 i (by omega)))

/-- **C55.**  For a generator with injective transition and at most `bitSize()` state bits,
`calcCharacteristicPolynomial(rand, poly)` started with a `poly` that is a divisor of the minimal polynomial
of the state (such as 1, or the minimal polynomial of an output bit that a search leaves) returns the least
common multiple of `poly` and of the minimal polynomials of all `w` output bit sequences: its multiples are
exactly the multiples of `poly` that annihilate them all.  The early exit does not lose anything. -/
theorem calcCharPoly_correct [Module.Finite (ZMod 2) S] {mps : MPS} (hm : MinPolySeqSpec mps)
    (h : LinGen G Inv den T O) (hT : Function.Injective T) {s : σ} (hs : Inv s)
    (hdim : Module.finrank (ZMod 2) S ≤ G.bitSize) {poly : (ZMod 2)[X]}
    (hpoly : ∀ q, aeval T q (den s) = 0 → poly ∣ q) :
    ∃ m r, calcCharPoly mps G s poly = some (stateAt G s m, r) ∧ r ≠ 0 ∧
      r.natDegree ≤ G.bitSize ∧ ∀ q, r ∣ q ↔ poly ∣ q ∧ AnnAll G s q := by
  have : Finite S := Module.finite_of_finite (ZMod 2)
  obtain ⟨h1, h2, h3⟩ := charpoly_hyps T (den s)
  obtain ⟨μ, hμ⟩ := exists_vecMinpoly h1.ne_zero h2
  have hd := hpoly μ ((hμ.2 μ).2 (dvd_refl _))
  obtain ⟨m, r, e1, e2, e3⟩ := charPolyLoop_spec hm h hT hs hdim hμ hd w 0 0 poly (by omega) hd
    (fun q => ⟨fun hq => ⟨hq, fun pos hp => absurd hp (by omega)⟩, fun hq => hq.1⟩)
  have hr0 : r ≠ 0 := fun h0 => hμ.1 (by rw [h0] at e2; exact zero_dvd_iff.1 e2)
  refine ⟨m, r, e1, hr0, ?_, e3⟩
  exact (natDegree_le_of_dvd (e2.trans ((hμ.2 _).1 h2)) h1.ne_zero).trans (h3.le.trans hdim)

/-- **C55** as it is used after a successful search: `poly` is the minimal polynomial of output bit 0; then
the result generates the ideal of the polynomials annihilating all output bits. -/
theorem calcCharPoly_bit0 [Module.Finite (ZMod 2) S] {mps : MPS} (hm : MinPolySeqSpec mps)
    (h : LinGen G Inv den T O) (hT : Function.Injective T) {s : σ} (hs : Inv s) (hw : 0 < w)
    (hdim : Module.finrank (ZMod 2) S ≤ G.bitSize) {poly : (ZMod 2)[X]}
    (hpoly : IsSeqMinpoly poly (bitAt G s 0)) :
    ∃ m r, calcCharPoly mps G s poly = some (stateAt G s m, r) ∧ r ≠ 0 ∧
      r.natDegree ≤ G.bitSize ∧ ∀ q, r ∣ q ↔ AnnAll G s q := by
  obtain ⟨m, r, e1, e2, e3, e4⟩ := calcCharPoly_correct hm h hT hs hdim (poly := poly) (fun q hq => by
    apply hpoly.2.2
    rw [bitAt_eq h hs hw]
    exact ann_outSeq _ _ hq)
  exact ⟨m, r, e1, e2, e3, fun q => (e4 q).trans ⟨fun hq => hq.2, fun hq => ⟨hpoly.2.2 q (hq 0 hw), hq⟩⟩⟩

end Minpoly

/-! ## Searches -/

section Search

variable {σ π P S : Type} {w : ℕ} [AddCommGroup S] [Module (ZMod 2) S]

/-- Contract of a generator class as the searches use it: for every value `p` of the parameters the states
with these parameters form a linear generator, the state has `bitSize()` bits, and parameters are only
changed by `setUpParam`. -/
structure Family (D : SearchOps σ π w) (Inv : σ → Prop) (par : σ → P) (den : σ → S)
    (T : P → S →ₗ[ZMod 2] S) (O : P → S →ₗ[ZMod 2] V) : Prop where
  lin : ∀ p, LinGen D.gen (fun s => Inv s ∧ par s = p) den (T p) (O p)
  dim : Module.finrank (ZMod 2) S = D.gen.bitSize
  pos : 1 ≤ D.gen.bitSize
  wpos : 0 < w
  setUp_inv : ∀ s src s' src', Inv s → D.setUp s src = some (s', src') → Inv s'
  seed_inv : ∀ s, Inv s → Inv (D.seedOne s)
  seed_par : ∀ s, Inv s → par (D.seedOne s) = par s

/-- A primality test that decides primitivity in degree `n` (C26 and C27 provide them). -/
def PrimOK (prim : ℕ → (ZMod 2)[X] → Option Bool) (n : ℕ) : Prop :=
  ∀ p : (ZMod 2)[X], p.natDegree = n → ∃ b, prim n p = some b ∧ (b = true ↔ Primitive2 p n)

/-- Every non-zero state with parameters `p` has period exactly `2^n-1`. -/
def MaxPeriod (D : SearchOps σ π w) (Inv : σ → Prop) (par : σ → P) (den : σ → S) (p : P) (n : ℕ) : Prop :=
  ∀ s, Inv s → par s = p → den s ≠ 0 → ∀ k, den (stateAt D.gen s k) = den s ↔ 2 ^ n - 1 ∣ k

variable [Module.Finite (ZMod 2) S] {D : SearchOps σ π w} {Inv : σ → Prop} {par : σ → P} {den : σ → S}
  {T : P → S →ₗ[ZMod 2] S} {O : P → S →ₗ[ZMod 2] V} {mps : MPS}
  {prim : ℕ → (ZMod 2)[X] → Option Bool}

theorem maxPeriod_of_primitive (F : Family D Inv par den T O) {s : σ} (hs : Inv s)
    {p : (ZMod 2)[X]} (hp : IsSeqMinpoly p (bitAt D.gen s 0)) (hprim : Primitive2 p D.gen.bitSize) :
    p = (T (par s)).charpoly ∧ MaxPeriod D Inv par den (par s) D.gen.bitSize := by
  obtain ⟨h1, h2, h3⟩ := charpoly_hyps (T (par s)) (den s)
  have hd : p ∣ (T (par s)).charpoly := by
    apply hp.2.2
    rw [bitAt_eq (F.lin _) ⟨hs, rfl⟩ F.wpos]
    exact ann_outSeq _ _ h2
  have heq : p = (T (par s)).charpoly := by
    obtain ⟨c, hc⟩ := hd
    have hc0 : c ≠ 0 := fun h0 => h1.ne_zero (by rw [hc, h0, mul_zero])
    have hdd := congrArg natDegree hc
    rw [natDegree_mul hp.1 hc0, h3, F.dim, hprim.1] at hdd
    have hc1 : c = 1 := (monic_of_ne hc0).natDegree_eq_zero.1 (by omega)
    rw [hc, hc1, mul_one]
  refine ⟨heq, fun s' hs' hpar h0 k => ?_⟩
  rw [(stateAt_spec (F.lin _) ⟨hs', rfl⟩ k).2, hpar]
  refine period_of_primitive F.pos hprim ?_ h0 k
  rw [heq]
  exact (charpoly_hyps (T (par s)) (den s')).2.1

theorem primitive_of_maxPeriod (F : Family D Inv par den T O) {s : σ} (hs : Inv s)
    {p : (ZMod 2)[X]} (hp : IsSeqMinpoly p (bitAt D.gen s 0)) (hne : bitAt D.gen s 0 ≠ 0)
    (hmax : MaxPeriod D Inv par den (par s) D.gen.bitSize) : Primitive2 p D.gen.bitSize := by
  obtain ⟨h1, h2, h3⟩ := charpoly_hyps (T (par s)) (den s)
  have hb := bitAt_eq (F.lin (par s)) ⟨hs, rfl⟩ F.wpos
  have h0 : den s ≠ 0 := fun h => hne (by rw [hb, h, map_zero])
  obtain ⟨μ, hμ⟩ := exists_vecMinpoly h1.ne_zero h2
  have hμd : μ.natDegree ≤ D.gen.bitSize := by
    rw [← F.dim, ← h3]; exact natDegree_le_of_dvd ((hμ.2 _).1 h2) h1.ne_zero
  have hprim := primitive_of_period hμ F.pos hμd h0 (fun k => by
    rw [← hmax s hs rfl h0 k, (stateAt_spec (F.lin _) ⟨hs, rfl⟩ k).2])
  have hd : p ∣ μ := by
    apply hp.2.2
    rw [hb]
    exact ann_outSeq _ _ ((hμ.2 _).2 (dvd_refl _))
  rcases (Primitive2.irreducible F.pos hprim).dvd_iff.1 hd with hu | ha
  · rw [isUnit_iff_one] at hu
    exact absurd (ann_one.1 (hu ▸ hp.2.1)) hne
  · rwa [← eq_of_associated ha]

/-- **C33 (one parameter set), C34.**  A turn of the loop never executes anything undefined.  If the
parameter source throws, the exception leaves with nothing changed.  Otherwise `count` is incremented by one,
the parameters left in the generator are those drawn from the source, its state is `2n` steps after the
seed, and the set is accepted exactly if
*every* non-zero state has the maximal period `2^n-1` and some output of the seeded state has a non-zero
lowest bit; then `poly` is the primitive characteristic polynomial of the transition. -/
theorem tryOnce_correct (hm : MinPolySeqSpec mps) (F : Family D Inv par den T O)
    (hprim : PrimOK prim D.gen.bitSize) (st : St σ π) (hinv : Inv st.rand) :
    (D.setUp st.rand st.src = none ∧ tryOnce mps D prim st = .threw st) ∨
    ∃ r src st' b, D.setUp st.rand st.src = some (r, src) ∧ tryOnce mps D prim st = .ret b st' ∧
      st'.count = st.count + 1 ∧ st'.src = src ∧
      st'.rand = stateAt D.gen (D.seedOne r) (2 * D.gen.bitSize) ∧ Inv st'.rand ∧ par st'.rand = par r ∧
      (b = true ↔ MaxPeriod D Inv par den (par r) D.gen.bitSize ∧
        ∃ i, (outAt D.gen (D.seedOne r) i).getLsbD 0 = true) ∧
      (b = true → st'.poly = (T (par r)).charpoly ∧ Primitive2 st'.poly D.gen.bitSize) := by
  unfold tryOnce
  cases hsu : D.setUp st.rand st.src with
  | none => left; exact ⟨rfl, rfl⟩
  | some q =>
    right
    obtain ⟨r, src⟩ := q
    have hr := F.setUp_inv _ _ _ _ hinv hsu
    have hs := F.seed_inv r hr
    have hpar := F.seed_par r hr
    obtain ⟨p, e1, e2⟩ := minpoly_dim hm (F.lin (par r)) (s := D.seedOne r) ⟨hs, hpar⟩ F.wpos F.dim.le
    have hst := (stateAt_spec (F.lin (par r)) (g := D.seedOne r) ⟨hs, hpar⟩ (2 * D.gen.bitSize)).1
    have hbit : bitAt D.gen (D.seedOne r) 0 ≠ 0 ↔
        ∃ i, (outAt D.gen (D.seedOne r) i).getLsbD 0 = true := by
      rw [Ne, funext_iff, not_forall]
      refine exists_congr fun i => ?_
      unfold bitAt
      cases (outAt D.gen (D.seedOne r) i).getLsbD 0 <;> simp
    have hback : MaxPeriod D Inv par den (par r) D.gen.bitSize →
        (∃ i, (outAt D.gen (D.seedOne r) i).getLsbD 0 = true) → Primitive2 p D.gen.bitSize :=
      fun h1 h2 => primitive_of_maxPeriod F hs e2 (hbit.2 h2) (by rw [hpar]; exact h1)
    simp only [Nat.cast_zero] at e1
    simp only [e1]
    by_cases hd : Period.deg p = D.gen.bitSize
    · rw [if_neg (not_not.2 hd)]
      have hd' := (Period.deg_eq_iff F.pos).1 hd
      obtain ⟨b, g1, g2⟩ := hprim p hd'
      simp only [g1]
      refine ⟨r, src, _, b, rfl, rfl, rfl, rfl, rfl, hst.1, hst.2, ?_, ?_⟩
      · refine g2.trans ⟨fun hp => ⟨?_, ?_⟩, fun hp => hback hp.1 hp.2⟩
        · have := (maxPeriod_of_primitive F hs e2 hp).2
          rwa [hpar] at this
        · rw [← hbit]
          intro h0
          have h1 : p ∣ 1 := e2.2.2 1 (ann_one.2 h0)
          have := F.pos
          rw [isUnit_iff_one.1 (isUnit_of_dvd_one h1), natDegree_one] at hd'
          omega
      · intro hb
        have hp := g2.1 hb
        refine ⟨?_, hp⟩
        have := (maxPeriod_of_primitive F hs e2 hp).1
        rwa [hpar] at this
    · rw [if_pos hd]
      refine ⟨r, src, _, false, rfl, rfl, rfl, rfl, rfl, hst.1, hst.2, ?_, by simp⟩
      refine ⟨fun h => absurd h (by simp), fun h => absurd ((Period.deg_eq_iff F.pos).2 ?_) hd⟩
      exact (hback h.1 h.2).1

/-- `Rejects st n st'`: starting at `st`, `n` consecutive parameter sets are drawn, examined and rejected,
and the search is then in state `st'`. -/
inductive Rejects (mps : MPS) (D : SearchOps σ π w) (prim : ℕ → (ZMod 2)[X] → Option Bool) :
    St σ π → ℕ → St σ π → Prop
  | nil (st) : Rejects mps D prim st 0 st
  | cons {st st1 st2 n} : tryOnce mps D prim st = .ret false st1 → Rejects mps D prim st1 n st2 →
      Rejects mps D prim st (n + 1) st2

/-- **C34.**  `start(n)` either returns true after `m < n` rejected sets and one accepted one, or returns
false after exactly `n` rejected ones, or the exception of the parameter source leaves it after `m < n`
rejected ones; `count` grows by the number of examined sets in each case. -/
theorem start_bookkeeping (hm : MinPolySeqSpec mps) (F : Family D Inv par den T O)
    (hprim : PrimOK prim D.gen.bitSize) (n : ℕ) (st : St σ π) (hinv : Inv st.rand) :
    (∃ m st1 st', m < n ∧ Rejects mps D prim st m st1 ∧ tryOnce mps D prim st1 = .ret true st' ∧
      start mps D prim n st = .ret true st' ∧ st'.count = st.count + m + 1 ∧ Inv st1.rand) ∨
    (∃ st', Rejects mps D prim st n st' ∧ start mps D prim n st = .ret false st' ∧
      st'.count = st.count + n ∧ Inv st'.rand) ∨
    (∃ m st', m < n ∧ Rejects mps D prim st m st' ∧ D.setUp st'.rand st'.src = none ∧
      start mps D prim n st = .threw st' ∧ st'.count = st.count + m ∧ Inv st'.rand) := by
  induction n generalizing st with
  | zero => right; left; exact ⟨st, .nil st, rfl, rfl, hinv⟩
  | succ n ih =>
    rcases tryOnce_correct hm F hprim st hinv with ⟨h1, h2⟩ | ⟨r, src, st1, b, h1, h2, h3, h4, -, h5, h6, h7, h8⟩
    · right; right
      refine ⟨0, st, by omega, .nil st, h1, ?_, rfl, hinv⟩
      simp only [start, h2]
    · cases b with
      | true =>
        left
        refine ⟨0, st, st1, by omega, .nil st, h2, ?_, h3, hinv⟩
        simp only [start, h2]
      | false =>
        have hstart : start mps D prim (n + 1) st = start mps D prim n st1 := by
          simp only [start, h2]
        rw [hstart]
        rcases ih st1 h5 with ⟨m, a, b, g1, g2, g3, g4, g5, g6⟩ | ⟨b, g2, g3, g4, g5⟩ |
          ⟨m, b, g1, g2, g3, g4, g5, g6⟩
        · left
          exact ⟨m + 1, a, b, by omega, .cons h2 g2, g3, g4, by omega, g6⟩
        · right; left
          exact ⟨b, .cons h2 g2, g3, by omega, g5⟩
        · right; right
          exact ⟨m + 1, b, by omega, .cons h2 g2, g3, g4, by omega, g6⟩

/-- **C33.**  If `start` returns true, the parameters left in the generator give every non-zero state the
maximal period `2^n-1`, `n` the number of state bits, and `poly` is the primitive characteristic polynomial
of the transition function. -/
theorem start_max_period (hm : MinPolySeqSpec mps) (F : Family D Inv par den T O)
    (hprim : PrimOK prim D.gen.bitSize) (n : ℕ) (st st' : St σ π) (hinv : Inv st.rand)
    (hret : start mps D prim n st = .ret true st') :
    MaxPeriod D Inv par den (par st'.rand) D.gen.bitSize ∧
      st'.poly = (T (par st'.rand)).charpoly ∧ Primitive2 st'.poly D.gen.bitSize := by
  rcases start_bookkeeping hm F hprim n st hinv with ⟨m, st1, a, g1, g2, g3, g4, g5, g6⟩ |
    ⟨b, g2, g3, g4, g5⟩ | ⟨m, b, g1, g2, g3, g4, g5, g6⟩
  · rw [g4] at hret
    have : a = st' := by injection hret
    subst this
    rcases tryOnce_correct hm F hprim st1 g6 with ⟨h1, h2⟩ |
      ⟨r, src, st2, b, h1, h2, h3, h4, -, h5, h6, h7, h8⟩
    · rw [h2] at g3; cases g3
    · rw [h2] at g3
      injection g3 with e1 e2
      subst e1 e2
      rw [h6]
      exact ⟨(h7.1 rfl).1, h8 rfl⟩
  · rw [g3] at hret; cases hret
  · rw [g4] at hret; cases hret

/-- **C33** for the tests the library ships: a table of the prime factors of `2^n-1`. -/
theorem primOK_table {n : ℕ} (hn : 2 ≤ n) {L : List ℕ} (hL : Period.IsFactorList L (2 ^ n - 1)) :
    PrimOK (Period.primitivityOp (some L)) n := fun p _ => Period.primitivityOp_correct p hn hL

/-- **C33** for the tests the library ships: `MersennePrimitivity` with a Mersenne exponent. -/
theorem primOK_mersenne {n : ℕ} (hn : (2 ^ n - 1).Prime) :
    PrimOK (Period.primitivityOp none) n := fun p _ => Period.primitivityOp_mersenne p hn

/-! ### The reducible search -/

/-- **C56.**  One turn of the reducible search: nothing undefined; if the set is accepted, `irreducible` is
an irreducible factor of degree `mexp` of the minimal polynomial of bit 0 of the seeded state; conversely,
a set whose minimal polynomial has such a factor and degree less than `2*mexp` is accepted. -/
theorem rTryOnce_correct (hm : MinPolySeqSpec mps) (F : Family D Inv par den T O) {mexp : ℕ}
    (hmexp : 1 ≤ mexp) (st : RSt σ π) (hinv : Inv st.rand) :
    (D.setUp st.rand st.src = none ∧ rTryOnce mps D mexp st = .threw st) ∨
    ∃ r src st' b, D.setUp st.rand st.src = some (r, src) ∧ rTryOnce mps D mexp st = .ret b st' ∧
      st'.count = st.count + 1 ∧ st'.src = src ∧
      st'.rand = stateAt D.gen (D.seedOne r) (2 * D.gen.bitSize) ∧ Inv st'.rand ∧ par st'.rand = par r ∧
      IsSeqMinpoly st'.poly (bitAt D.gen (D.seedOne r) 0) ∧
      (b = true → Irreducible st'.irreducible ∧ st'.irreducible.natDegree = mexp ∧
        st'.irreducible ∣ st'.poly) ∧
      (∀ g, Irreducible g → g.natDegree = mexp → g ∣ st'.poly → st'.poly.natDegree < 2 * mexp →
        b = true ∧ st'.irreducible = g) := by
  unfold rTryOnce
  cases hsu : D.setUp st.rand st.src with
  | none => left; exact ⟨rfl, rfl⟩
  | some q =>
    right
    obtain ⟨r, src⟩ := q
    have hr := F.setUp_inv _ _ _ _ hinv hsu
    have hs := F.seed_inv r hr
    have hpar := F.seed_par r hr
    obtain ⟨p, e1, e2⟩ := minpoly_dim hm (F.lin (par r)) (s := D.seedOne r) ⟨hs, hpar⟩ F.wpos F.dim.le
    have hst := (stateAt_spec (F.lin (par r)) (g := D.seedOne r) ⟨hs, hpar⟩ (2 * D.gen.bitSize)).1
    simp only [Nat.cast_zero] at e1
    simp only [e1]
    have hdeg : Period.deg p = p.natDegree := Period.deg_of_ne e2.1
    by_cases hd : Period.deg p < mexp
    · rw [if_pos hd]
      refine ⟨r, src, _, false, rfl, rfl, rfl, rfl, rfl, hst.1, hst.2, e2, by simp, ?_⟩
      intro g hg hgd hgp _
      exfalso
      have := natDegree_le_of_dvd hgp e2.1
      rw [hdeg] at hd
      have hd' : p.natDegree < mexp := by exact_mod_cast hd
      simp only at this
      omega
    · rw [if_neg hd]
      obtain ⟨b, irr, g1, g2, g3, g4⟩ := Period.hasFactorOfDegree_correct p hmexp
        (fuel := p.natDegree + 1) le_rfl
      have hhalf := fun g hg hgp hgd hh => Period.hasFactorOfDegree_half p g e2.1 hmexp
        (fuel := p.natDegree + 1) le_rfl hg hgp hgd hh
      simp only [g1]
      cases b with
      | false =>
        simp only [if_true]
        refine ⟨r, src, _, false, rfl, rfl, rfl, rfl, rfl, hst.1, hst.2, e2, by simp, ?_⟩
        intro g hg hgd hgp hh
        have := hhalf g hg hgp hgd hh
        rw [g1] at this
        simp at this
      | true =>
        obtain ⟨k1, k2⟩ := g3 rfl
        have hne : ¬ Period.deg irr ≠ mexp := by
          rw [Period.deg_of_ne k1.ne_zero, k2]; simp
        rw [if_neg (by simp), if_neg hne]
        refine ⟨r, src, _, true, rfl, rfl, rfl, rfl, rfl, hst.1, hst.2, e2, fun _ => ⟨k1, k2, g2⟩, ?_⟩
        intro g hg hgd hgp hh
        have := hhalf g hg hgp hgd hh
        rw [g1] at this
        simpa using this

/-- **C56.**  If the reducible search returns true, `irreducible` is an irreducible polynomial of degree
`mexp`; if `2^mexp-1` is prime, the period of the state seeded with 1 — for the parameters left in the
generator — is a multiple of `2^mexp-1`. -/
theorem rStart_long_period (hm : MinPolySeqSpec mps) (F : Family D Inv par den T O) {mexp : ℕ}
    (hmexp : 1 ≤ mexp) (n : ℕ) (st st' : RSt σ π) (hinv : Inv st.rand)
    (hret : rStart mps D mexp n st = .ret true st') :
    Irreducible st'.irreducible ∧ st'.irreducible.natDegree = mexp ∧ st'.irreducible ∣ st'.poly ∧
      ∃ s0 r0, Inv s0 ∧ r0 = D.seedOne s0 ∧ par r0 = par st'.rand ∧
        IsSeqMinpoly st'.poly (bitAt D.gen r0 0) ∧
        ((2 ^ mexp - 1).Prime → ∀ k, den (stateAt D.gen r0 k) = den r0 → 2 ^ mexp - 1 ∣ k) := by
  induction n generalizing st with
  | zero => cases hret
  | succ n ih =>
    rcases rTryOnce_correct hm F hmexp st hinv with ⟨h1, h2⟩ |
      ⟨r, src, st1, b, h1, h2, h3, h4, -, h5, h6, h7, h8, h9⟩
    · simp only [rStart, h2] at hret; cases hret
    · cases b with
      | false =>
        simp only [rStart, h2] at hret
        exact ih st1 h5 hret
      | true =>
        simp only [rStart, h2] at hret
        injection hret with _ e
        subst e
        obtain ⟨k1, k2, k3⟩ := h8 rfl
        have hr := F.setUp_inv _ _ _ _ hinv h1
        have hs := F.seed_inv r hr
        have hpar := F.seed_par r hr
        refine ⟨k1, k2, k3, r, D.seedOne r, hr, rfl, by rw [h6, hpar], h7, fun hp k hk => ?_⟩
        have hprim := Period.primitive_of_mersenne k1 (by rw [k2]; exact hp)
        rw [k2] at hprim
        rw [← hprim.2 k]
        refine k3.trans (h7.2.2 _ ?_)
        rw [bitAt_eq (F.lin (par r)) ⟨hs, hpar⟩ F.wpos]
        apply ann_outSeq
        rw [aeval_X_pow_sub_one]
        rw [(stateAt_spec (F.lin (par r)) ⟨hs, hpar⟩ k).2] at hk
        exact hk

/-- `RRejects st n st'`: starting at `st`, `n` consecutive parameter sets are drawn, examined and rejected by the
reducible search, which is then in state `st'`. -/
inductive RRejects (mps : MPS) (D : SearchOps σ π w) (mexp : ℕ) : RSt σ π → ℕ → RSt σ π → Prop
  | nil (st) : RRejects mps D mexp st 0 st
  | cons {st st1 st2 n} : rTryOnce mps D mexp st = .ret false st1 → RRejects mps D mexp st1 n st2 →
      RRejects mps D mexp st (n + 1) st2

/-- **C34** for the reducible search: it returns true after `m < n` rejected sets and one accepted one, or false after exactly
`n` rejected ones, or is left by the exception of the parameter source after `m < n` rejected ones; `count` grows by the
number of examined sets in each case. -/
theorem rStart_bookkeeping (hm : MinPolySeqSpec mps) (F : Family D Inv par den T O) {mexp : ℕ}
    (hmexp : 1 ≤ mexp) (n : ℕ) (st : RSt σ π) (hinv : Inv st.rand) :
    (∃ m st1 st', m < n ∧ RRejects mps D mexp st m st1 ∧ rTryOnce mps D mexp st1 = .ret true st' ∧
      rStart mps D mexp n st = .ret true st' ∧ st'.count = st.count + m + 1 ∧ Inv st1.rand) ∨
    (∃ st', RRejects mps D mexp st n st' ∧ rStart mps D mexp n st = .ret false st' ∧
      st'.count = st.count + n ∧ Inv st'.rand) ∨
    (∃ m st', m < n ∧ RRejects mps D mexp st m st' ∧ D.setUp st'.rand st'.src = none ∧
      rStart mps D mexp n st = .threw st' ∧ st'.count = st.count + m ∧ Inv st'.rand) := by
  induction n generalizing st with
  | zero => right; left; exact ⟨st, .nil st, rfl, rfl, hinv⟩
  | succ n ih =>
    rcases rTryOnce_correct hm F hmexp st hinv with ⟨h1, h2⟩ |
      ⟨r, src, st1, b, h1, h2, h3, h4, -, h5, h6, h7, h8, h9⟩
    · right; right
      refine ⟨0, st, by omega, .nil st, h1, ?_, rfl, hinv⟩
      simp only [rStart, h2]
    · cases b with
      | true =>
        left
        refine ⟨0, st, st1, by omega, .nil st, h2, ?_, h3, hinv⟩
        simp only [rStart, h2]
      | false =>
        have hstart : rStart mps D mexp (n + 1) st = rStart mps D mexp n st1 := by
          simp only [rStart, h2]
        rw [hstart]
        rcases ih st1 h5 with ⟨m, a, b, g1, g2, g3, g4, g5, g6⟩ | ⟨b, g2, g3, g4, g5⟩ | ⟨m, b, g1, g2, g3, g4, g5, g6⟩
        · left; exact ⟨m + 1, a, b, by omega, .cons h2 g2, g3, g4, by omega, g6⟩
        · right; left; exact ⟨b, .cons h2 g2, g3, by omega, g5⟩
        · right; right; exact ⟨m + 1, b, by omega, .cons h2 g2, g3, g4, by omega, g6⟩

end Search

end MTT.Search
