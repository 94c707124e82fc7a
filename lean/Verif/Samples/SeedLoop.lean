import Verif.Search.Orbit
import Verif.PIS.Uniform
import Verif.Spec.Shift
import Verif.MT.SeedInjProps

/-!
# Helper lemmas for C113: seeding loops, and streams of two states
-/

namespace MTT.Seeding

open PIS Search

variable {w : ℕ}

/-- The words of a seeding recurrence (specification): word 0 is `v`, and word `j` is `x j ^ (j + m (p ^ (p >> k)))` with the
word `p` before it. -/
def val (m : BitVec w) (k : ℕ) (x : ℕ → BitVec w) (v : BitVec w) : ℕ → BitVec w
  | 0 => v
  | j + 1 => x (j + 1) ^^^ (BitVec.ofNat w (j + 1) + m * (val m k x v j ^^^ (val m k x v j >>> k)))

/-- Where nothing is added to it the word before can be recovered. -/
theorem step_inj {m i : BitVec w} {k : ℕ} (hk : 1 ≤ k) (h : i * m = 1) {x c p q : BitVec w}
    (e : x ^^^ (c + m * (p ^^^ (p >>> k))) = x ^^^ (c + m * (q ^^^ (q >>> k)))) : p = q :=
  shr_inj hk (MT.mul_inj h ((BitVec.add_right_inj _).1 ((BitVec.xor_right_inj _).1 e)))

theorem val_back {m i : BitVec w} {k : ℕ} (hk : 1 ≤ k) (h : i * m = 1) {x x' : ℕ → BitVec w} {v v' : BitVec w} {a : ℕ} :
    ∀ d, (∀ j, a < j → j ≤ a + d → x j = x' j) → val m k x v (a + d) = val m k x' v' (a + d) → val m k x v a = val m k x' v' a
  | 0, _, e => e
  | d + 1, hx, e => by
    refine val_back hk h d (fun j h1 h2 => hx j h1 (by omega)) ?_
    have e' : x (a + d + 1) ^^^ (BitVec.ofNat w (a + d + 1) + m * (val m k x v (a + d) ^^^ (val m k x v (a + d) >>> k))) =
      x' (a + d + 1) ^^^ (BitVec.ofNat w (a + d + 1) + m * (val m k x' v' (a + d) ^^^ (val m k x' v' (a + d) >>> k))) := e
    rw [hx (a + d + 1) (by omega) (by omega)] at e'
    exact step_inj hk h e'

/-- After a zero word comes the number of the next. -/
theorem val_after_zero {m : BitVec w} {k : ℕ} {x : ℕ → BitVec w} {v : BitVec w} {j : ℕ} (hx : x (j + 1) = 0) (hv : val m k x v j = 0) :
    val m k x v (j + 1) = BitVec.ofNat w (j + 1) := by
  show x (j + 1) ^^^ (BitVec.ofNat w (j + 1) + m * (val m k x v j ^^^ (val m k x v j >>> k))) = _
  rw [hx, hv]
  simp

theorem ofNat_ne_zero {j : ℕ} (h0 : 0 < j) (h1 : j < 2 ^ w) : BitVec.ofNat w j ≠ 0 := by
  intro e
  have := congrArg BitVec.toNat e
  rw [BitVec.toNat_ofNat, Nat.mod_eq_of_lt h1] at this
  simp at this
  omega

/-- A loop that fills an array from the word before. -/
def fill {β : Type} (f : ℕ → β → β) : ℕ → ℕ → (ℕ → β) → (ℕ → β)
  | 0, _, m => m
  | k + 1, i, m => fill f k (i + 1) (Function.update m i (f i (m (i - 1))))

theorem fill_spec {β : Type} (f : ℕ → β → β) (g : ℕ → β) (hg : ∀ j, g (j + 1) = f (j + 1) (g j)) :
    ∀ k i m, 1 ≤ i → (∀ j, j < i → m j = g j) → ∀ j, j < i + k → fill f k i m j = g j
  | 0, i, m, _, h, j, hj => h j hj
  | k + 1, i, m, hi, h, j, hj => by
    refine fill_spec f g hg k (i + 1) _ (by omega) (fun j hj => ?_) j (by omega)
    by_cases e : j = i
    · obtain ⟨i, rfl⟩ : ∃ a, i = a + 1 := ⟨i - 1, by omega⟩
      rw [e, Function.update_self, hg, ← h i (by omega)]
      rfl
    · rw [Function.update_of_ne e]
      exact h j (by omega)

/-! ## Streams -/

variable {σ S : Type} [AddCommGroup S] [Module (ZMod 2) S] {G : GenOps σ w} {Inv : σ → Prop} {den : σ → S} {T : S →ₗ[ZMod 2] S}
  {O : S →ₗ[ZMod 2] V}

theorem outAt_congr (h : LinGen G Inv den T O) {a b : σ} (ha : Inv a) (hb : Inv b) (e : den a = den b) (k : ℕ) :
    outAt G a k = outAt G b k := by
  apply bits_inj
  rw [outAt_spec h ha, outAt_spec h hb, e]

/-- Two states of a generator of maximal period whose output is not always zero: the streams differ again and again. -/
theorem outAt_differ [Module.Finite (ZMod 2) S] (h : LinGen G Inv den T O) {n : ℕ} (hn : 1 ≤ n) (hdim : Module.finrank (ZMod 2) S = n)
    (hmax : ∀ u, Inv u → den u ≠ 0 → ∀ k, den (stateAt G u k) = den u ↔ 2 ^ n - 1 ∣ k) (hO : ∃ u, Inv u ∧ (G.generate u).2 ≠ 0)
    {a b : σ} (ha : Inv a) (hb : Inv b) (hab : den a ≠ den b) (K : ℕ) : ∃ k, K ≤ k ∧ outAt G a k ≠ outAt G b k := by
  by_contra hno
  have heq : ∀ k, K ≤ k → outAt G a k = outAt G b k := fun k hk => by
    by_contra hne
    exact hno ⟨k, hk, hne⟩
  have hI := h.add_inv a b ha hb
  have hd := h.add_den a b ha hb
  have h0 : den (G.add a b) ≠ 0 := by
    rw [hd]
    intro e
    apply hab
    have e2 : den b + den b = 0 := by
      have : (2 : ZMod 2) • den b = 0 := by rw [show (2 : ZMod 2) = 0 from rfl, zero_smul]
      rwa [two_smul] at this
    exact add_right_cancel (e.trans e2.symm)
  have hper : ∀ k, (T ^ k) (den (G.add a b)) = den (G.add a b) ↔ 2 ^ n - 1 ∣ k := fun k => by
    rw [← (stateAt_spec h hI k).2]
    exact hmax _ hI h0 k
  have hz : ∀ k, K ≤ k → O ((T ^ k) (den (G.add a b))) = 0 := fun k hk => by
    rw [hd, map_add, map_add, ← outAt_spec h ha, ← outAt_spec h hb, heq k hk]
    have : (2 : ZMod 2) • bits (outAt G b k) = 0 := by rw [show (2 : ZMod 2) = 0 from rfl, zero_smul]
    rwa [two_smul] at this
  have hz' : ∀ k, O ((T ^ k) (den (G.add a b))) = 0 := fun k => by
    have h1 : 1 ≤ 2 ^ n - 1 := by
      have : 2 ^ 1 ≤ 2 ^ n := Nat.pow_le_pow_right (by omega) hn
      omega
    have := hz (k + (2 ^ n - 1) * K) (by nlinarith)
    rwa [pow_add, Module.End.mul_apply, (hper _).2 (Dvd.intro _ rfl)] at this
  have hc := cyc_top hn hdim h0 hper
  obtain ⟨u, hu, hne⟩ := hO
  have hmem : den u ∈ cyc T (den (G.add a b)) := by rw [hc]; trivial
  have hle : cyc T (den (G.add a b)) ≤ LinearMap.ker O := by
    unfold cyc
    rw [Submodule.span_le]
    rintro _ ⟨k, rfl⟩
    exact hz' k
  have h1 : bits (G.generate u).2 = 0 := by
    rw [h.gen_out u hu]
    exact hle hmem
  apply hne
  apply bits_inj
  rw [h1]
  funext i
  simp [bits]

/-- If the outputs determine the states of a subspace then different states of it have different streams. -/
theorem outAt_obs (h : LinGen G Inv den T O) {F : Submodule (ZMod 2) S} (hobs : ∀ x ∈ F, (∀ i j, j < w → O ((T ^ i) x) j = 0) → x = 0)
    {a b : σ} (ha : Inv a) (hb : Inv b) (fa : den a ∈ F) (fb : den b ∈ F) (hab : den a ≠ den b) : ∃ k, outAt G a k ≠ outAt G b k := by
  by_contra hno
  apply hab
  have e2 : ∀ {W : Type} [AddCommGroup W] [Module (ZMod 2) W] (x : W), x + x = 0 := fun x => by
    have : (2 : ZMod 2) • x = 0 := by rw [show (2 : ZMod 2) = 0 from rfl, zero_smul]
    rwa [two_smul] at this
  have h0 := hobs _ (F.add_mem fa fb) fun i j _ => by
    rw [map_add, map_add, ← outAt_spec h ha, ← outAt_spec h hb, show outAt G a i = outAt G b i from by_contra fun hne => hno ⟨i, hne⟩, e2]
    rfl
  exact add_right_cancel (h0.trans (e2 _).symm)

end MTT.Seeding
