import Verif.SIMD.Pack
import Verif.SIMD.Stream
import Verif.PIS.Props

/-!
# One accuracy of `AlgorithmSIMDEquidistribution` (helper lemmas)
-/

namespace MTT.SIMD

open W128 PIS Polynomial

/-- The bits of a word of `L` bits, reversed if `lsb`. -/
def flip (L : ℕ) (lsb : Bool) : V →ₗ[ZMod 2] V where
  toFun := fun z c => if c < L then z (if lsb then L - 1 - c else c) else 0
  map_add' := fun x y => by
    funext c
    show (if c < L then (x + y) _ else 0) = (if c < L then x _ else 0) + (if c < L then y _ else 0)
    split_ifs <;> simp
  map_smul' := fun r x => by
    funext c
    show (if c < L then (r • x) _ else 0) = r • (if c < L then x _ else 0)
    split_ifs <;> simp

theorem flip_apply (L : ℕ) (lsb : Bool) (z : V) (c : ℕ) :
    flip L lsb z c = if c < L then z (pick L lsb c) else 0 := rfl

section
variable {S : Type} [AddCommGroup S] [Module (ZMod 2) S]

/-- What one mode of a generator of blocks has to do: started as the algorithm starts it, it is a linear generator
whose output words are `E` lanes (bit `c` of lane `i` at place `pos i c`); the lanes below `b` are of the window of `E` words
from word `a + E` on, the others are of the window from word `a` on (both moved by some number `d` of blocks). -/
def Mode {σ : Type} (G : GenOps σ 128) (L E : ℕ) (pos : ℕ → ℕ → ℕ) (work : σ) (a b : ℕ) (x : ℕ → S →ₗ[ZMod 2] V)
    (T : S →ₗ[ZMod 2] S) (s0 : S) : Prop :=
  ∃ (S' : Type) (_ : AddCommGroup S') (_ : Module (ZMod 2) S') (Inv : σ → Prop) (den : σ → S')
    (T' : S' →ₗ[ZMod 2] S') (O' : S' →ₗ[ZMod 2] V) (φ : S →ₗ[ZMod 2] S'),
    LinGen G Inv den T' O' ∧ Inv work ∧ den work = φ s0 ∧ (∀ s, T' (φ s) = φ (T s)) ∧
    ∃ d, ∀ s, ∀ i < E, ∀ c < L, O' (φ s) (pos i c) = x (a + E * d + (if i < b then E else 0) + i) s c

variable {x : ℕ → S →ₗ[ZMod 2] V} {C : Submodule (ZMod 2) S} {T : S →ₗ[ZMod 2] S} {E : ℕ}

theorem Blocks.shift_pow (H : Blocks x C T E) (t k : ℕ) (s : S) : x (k + E * t) s = x k ((T ^ t) s) := by
  induction t generalizing s with
  | zero => simp
  | succ t ih => rw [Nat.mul_succ, ← Nat.add_assoc, H.shift, ih, pow_succ, Module.End.mul_apply]

theorem Blocks.flip (H : Blocks x C T E) (L : ℕ) (lsb : Bool) :
    Blocks (fun k => (flip L lsb).comp (x k)) C T E :=
  ⟨fun k s => congrArg (SIMD.flip L lsb) (H.shift k s), H.stable, H.onto⟩

/-- The output of `get_next`, seen through the output of the generator. -/
def packed (L E v : ℕ) (pos : ℕ → ℕ → ℕ) (lsb : Bool) : V →ₗ[ZMod 2] V where
  toFun := fun z p => if p < E * v then z (pos (p / v) (pick L lsb (p % v))) else 0
  map_add' := fun x y => by
    funext p
    show (if p < E * v then (x + y) _ else 0) = (if p < E * v then x _ else 0) + (if p < E * v then y _ else 0)
    split_ifs <;> simp
  map_smul' := fun r x => by
    funext p
    show (if p < E * v then (r • x) _ else 0) = r • (if p < E * v then x _ else 0)
    split_ifs <;> simp

/-- `get_next` as a generator. -/
def adapter {σ : Type} (G : SIMDOps σ) (A : Alg) (v : ℕ) : GenOps σ 128 where
  generate := getNext G A v
  generateV := fun m s => ((getNext G A v s).1,
    (getNext G A v s).2 &&& (BitVec.allOnes 128 <<< (128 - m)))
  add := G.gen.add
  setZero := G.gen.setZero
  isZero := G.gen.isZero
  bitSize := G.gen.bitSize

section
variable {A : Alg} {lsb : Bool} {L E q : ℕ} {ps : ℕ → ℕ → ℕ}

theorem Layout.mul (h : Layout A lsb L E q ps) : E * L ≤ 128 := by
  rcases h with _ | _ | - <;> decide

theorem Layout.el (h : Layout A lsb L E q ps) : A.elementNo = E := by
  rcases h with _ | _ | - <;> rfl

theorem Layout.pos (h : Layout A lsb L E q ps) : 0 < E := by
  rcases h with _ | _ | - <;> decide

end

theorem adapter_lin {σ S' : Type} [AddCommGroup S'] [Module (ZMod 2) S'] {G : SIMDOps σ} {Inv : σ → Prop}
    {den : σ → S'} {T' : S' →ₗ[ZMod 2] S'} {O' : S' →ₗ[ZMod 2] V} (h : LinGen G.gen Inv den T' O') {A : Alg}
    {lsb : Bool} {L E q : ℕ} {pos : ℕ → ℕ → ℕ} (hl : Layout A lsb L E q pos) {v : ℕ} (h0 : 0 < v) (hv : v ≤ L) :
    LinGen (adapter G A v) Inv den T' ((packed L E v pos lsb).comp O') := by
  have ho : ∀ s, Inv s → bits (getNext G A v s).2 = (packed L E v pos lsb) (O' (den s)) := by
    intro s hs
    funext p
    show bits (A.pack v (G.gen.generate s).2) p = _
    rw [pack_bits hl h0 hv, h.gen_out s hs]
    rfl
  refine ⟨h.gen_inv, h.gen_den, ho, fun m s _ _ => h.gen_inv s, fun m s _ _ => h.gen_den s, ?_, h.add_inv, h.add_den,
    h.zero_inv, h.zero_den⟩
  intro m s _ hm hs
  show bits ((getNext G A v s).2 &&& _) = _
  rw [bits_and_mask _ hm, ho s hs]
  rfl

theorem adapter_generateV {σ : Type} {G : SIMDOps σ} {A : Alg}
    {lsb : Bool} {L E q : ℕ} {pos : ℕ → ℕ → ℕ} (hl : Layout A lsb L E q pos) {v : ℕ} (h0 : 0 < v) (hv : v ≤ L) :
    (adapter G A v).generateV (v * E) = getNext G A v := by
  funext s
  have hE : v * E ≤ 128 := by
    rw [Nat.mul_comm]; exact (Nat.mul_le_mul_left _ hv).trans hl.mul
  refine Prod.ext rfl ?_
  show (A.pack v (G.gen.generate s).2 &&& _) = A.pack v (G.gen.generate s).2
  apply bits_inj
  rw [bits_and_mask _ hE]
  funext p
  rw [mask_apply, pack_bits hl h0 hv]
  by_cases hp : p < E * v
  · rw [if_pos (by rw [Nat.mul_comm]; exact hp)]
  · rw [if_neg (by rw [Nat.mul_comm]; exact hp), if_neg hp]

theorem minCount_eq {σ : Type} (b : ℕ → Entry σ 128) (m : ℕ) (h : ∀ i < m, (b i).zero = false) :
    minCount b m = PIS.minCount b m := by
  unfold minCount PIS.minCount
  have : ∀ (l : List ℕ) (z : ℕ), (∀ i ∈ l, i + 1 < m) →
      l.foldl (fun mn i => if (b (i + 1)).zero then mn
        else if mn > (b (i + 1)).count then (b (i + 1)).count else mn) z =
      l.foldl (fun mn i => if mn > (b (i + 1)).count then (b (i + 1)).count else mn) z := by
    intro l
    induction l with
    | nil => intro z _; rfl
    | cons i l ih =>
      intro z hz
      rw [List.foldl_cons, List.foldl_cons, ih _ fun j hj => hz j (List.mem_cons_of_mem _ hj)]
      rw [if_neg (by rw [h _ (hz i (List.mem_cons_self ..))]; decide)]
  apply this
  intro i hi
  have := List.mem_range.1 hi
  omega

/-- One accuracy: the number of blocks that are equidistributed, by the lattice. -/
theorem getEquidist_lin {σ S' : Type} [AddCommGroup S'] [Module (ZMod 2) S'] {G : SIMDOps σ} {Inv : σ → Prop}
    {den : σ → S'} {T' : S' →ₗ[ZMod 2] S'} {O' : S' →ₗ[ZMod 2] V} (h : LinGen G.gen Inv den T' O') {A : Alg}
    {lsb : Bool} {L E q : ℕ} {pos : ℕ → ℕ → ℕ} (hl : Layout A lsb L E q pos) {v : ℕ} (h0 : 0 < v) (hv : v ≤ L) {work : σ} (hw : Inv work)
    {χ : (ZMod 2)[X]} (hχ : χ.Monic) (hc : aeval T' χ (den work) = 0) {B : ℕ} (hB : χ.natDegree ≤ B)
    (hB2 : χ.natDegree ≤ 2 * G.gen.bitSize + 1)
    {calc1pos : W128 → Int} (h1 : IsCalc1pos calc1pos) {fuel : ℕ} (hf : 128 * (129 * χ.natDegree) + 129 ≤ fuel) :
    ∃ k, getEquidist G A calc1pos B fuel work v = .ok k ∧
      IsGreatest {k | Equidist T' ((packed L E v pos lsb).comp O') (cyc T' (den work)) (v * E) k} k := by
  have hE : v * E ≤ 128 := by
    rw [Nat.mul_comm]; exact (Nat.mul_le_mul_left _ hv).trans hl.mul
  have hm : 1 ≤ v * E := Nat.mul_pos h0 hl.pos
  have hA := adapter_lin h hl h0 hv
  have hP := construct_PInv hA hχ hw hc hB2 hm hE
  have hS := LinGen.stepLin hA hm hE
  rw [adapter_generateV hl h0 hv] at hS
  have hcon : PIS.construct (adapter G A v) work (v * E) = construct G A work v := by
    funext i
    unfold PIS.construct construct
    rw [adapter_generateV hl h0 hv, hl.el]
    rfl
  rw [hcon] at hP
  obtain ⟨b', k, e1, e2, e3, e4⟩ := main_correct hS hχ hc hB2 h1 hm (stateBitSize := B) (fuel := fuel) hB (by
    have : v * E * ((v * E + 1) * χ.natDegree) ≤ 128 * (129 * χ.natDegree) :=
      Nat.mul_le_mul hE (Nat.mul_le_mul_right _ (by omega))
    omega) hP
  refine ⟨k, ?_, e4⟩
  unfold getEquidistMain at e1
  unfold getEquidist
  rw [hl.el]
  dsimp only
  generalize hR : mainLoop (getNext G A v) G.gen.add G.gen.bitSize calc1pos (v * E) fuel
    (construct G A work v) (calc1pos (construct G A work v (v * E)).next) = R at e1
  have hR' : mainLoop (getNext G A v) (adapter G A v).add G.gen.bitSize calc1pos (v * E) fuel
    (construct G A work v) (calc1pos (construct G A work v (v * E)).next) = R := hR
  rw [hR'] at e1
  cases R with
  | error e => cases e1
  | ok b =>
    dsimp only at e1 ⊢
    split_ifs at e1 with hc
    obtain ⟨rfl, rfl⟩ := Prod.mk.inj (Except.ok.inj e1)
    rw [minCount_eq _ _ e2.flag, if_neg hc]

theorem cyc_map {S' : Type} [AddCommGroup S'] [Module (ZMod 2) S'] {T' : S' →ₗ[ZMod 2] S'} (φ : S →ₗ[ZMod 2] S')
    (h : ∀ s, T' (φ s) = φ (T s)) (s0 : S) : cyc T' (φ s0) = (cyc T s0).map φ := by
  have hp : ∀ t s, (T' ^ t) (φ s) = φ ((T ^ t) s) := by
    intro t
    induction t with
    | zero => intro s; rfl
    | succ t ih => intro s; rw [pow_succ, pow_succ, Module.End.mul_apply, Module.End.mul_apply, h, ih]
  unfold cyc
  rw [Submodule.map_span, ← Set.range_comp]
  congr 2
  funext t
  exact hp t s0

theorem aeval_map {S' : Type} [AddCommGroup S'] [Module (ZMod 2) S'] {T' : S' →ₗ[ZMod 2] S'} (φ : S →ₗ[ZMod 2] S')
    (h : ∀ s, T' (φ s) = φ (T s)) (p : (ZMod 2)[X]) (s : S) : aeval T' p (φ s) = φ (aeval T p s) := by
  induction p using Polynomial.induction_on' with
  | add p q hp hq => rw [map_add (aeval T'), map_add (aeval T), LinearMap.add_apply, LinearMap.add_apply, map_add, hp, hq]
  | monomial n a =>
    have hp : ∀ t s, (T' ^ t) (φ s) = φ ((T ^ t) s) := by
      intro t
      induction t with
      | zero => intro s; rfl
      | succ t ih => intro s; rw [pow_succ, pow_succ, Module.End.mul_apply, Module.End.mul_apply, h, ih]
    rw [aeval_monomial, aeval_monomial, Module.End.mul_apply, Module.End.mul_apply, hp,
      Module.algebraMap_end_apply, Module.algebraMap_end_apply, map_smul]

/-- The index of a word in the blocks of a mode. -/
theorem index_eq {E b i : ℕ} (hb : b ≤ E) (hi : i < E) (a t : ℕ) :
    a + (if i < b then E else 0) + i + E * t = a + b + (E * t + (i + E - b) % E) := by
  by_cases h : i < b
  · rw [if_pos h, Nat.mod_eq_of_lt (by omega)]; omega
  · rw [if_neg h, show i + E - b = i - b + E by omega, Nat.add_mod_right, Nat.mod_eq_of_lt (by omega)]; omega

theorem back_eq {E b r : ℕ} (hb : b ≤ E) (hr : r < E) : ((r + b) % E + E - b) % E = r := by
  by_cases h5 : r + b < E
  · rw [Nat.mod_eq_of_lt h5, show r + b + E - b = r + E by omega, Nat.add_mod_right, Nat.mod_eq_of_lt hr]
  · rw [show r + b = r + b - E + E by omega, Nat.add_mod_right, Nat.mod_eq_of_lt (show r + b - E < E by omega),
      show r + b - E + E - b = r by omega, Nat.mod_eq_of_lt hr]

theorem fore_eq {E b i : ℕ} (hb : b ≤ E) (hi : i < E) : ((i + E - b) % E + b) % E = i := by
  rw [Nat.mod_add_mod, show i + E - b + b = i + E by omega, Nat.add_mod_right, Nat.mod_eq_of_lt hi]

/-- The blocks of a mode are equidistributed if and only if the words from `a + b` on are. -/
theorem equidist_iff {L v : ℕ} {pos : ℕ → ℕ → ℕ} {s0 : S} {a b : ℕ}
    (H : Blocks x (cyc T s0) T E) (hE : 0 < E) (hb : b ≤ E) (lsb : Bool) (h0 : 0 < v) (hv : v ≤ L)
    {S' : Type} [AddCommGroup S'] [Module (ZMod 2) S']
    {T' : S' →ₗ[ZMod 2] S'} {O' : S' →ₗ[ZMod 2] V} {φ : S →ₗ[ZMod 2] S'} (hT : ∀ s, T' (φ s) = φ (T s))
    (hO : ∀ s, ∀ i < E, ∀ c < L, O' (φ s) (pos i c) = x (a + (if i < b then E else 0) + i) s c) (k : ℕ) :
    Equidist T' ((packed L E v pos lsb).comp O') (cyc T' (φ s0)) (v * E) k ↔
      Eqd (fun k => (flip L lsb).comp (x k)) (cyc T s0) v (a + b) (E * k) := by
  have hp : ∀ t s, (T' ^ t) (φ s) = φ ((T ^ t) s) := by
    intro t
    induction t with
    | zero => intro s; rfl
    | succ t ih => intro s; rw [pow_succ, pow_succ, Module.End.mul_apply, Module.End.mul_apply, hT, ih]
  have key : ∀ (s : S) (t i c : ℕ), i < E → c < v →
      (packed L E v pos lsb).comp O' ((T' ^ t) (φ s)) (i * v + c) =
        (flip L lsb).comp (x (a + b + (E * t + (i + E - b) % E))) s c := by
    intro s t i c hi hc
    show (if i * v + c < E * v then O' ((T' ^ t) (φ s)) (pos ((i * v + c) / v) (pick L lsb ((i * v + c) % v)))
      else 0) = if c < L then x (a + b + (E * t + (i + E - b) % E)) s (pick L lsb c) else 0
    have hlt : i * v + c < E * v := by
      have : (i + 1) * v ≤ E * v := Nat.mul_le_mul_right _ (by omega)
      rw [Nat.add_mul] at this; omega
    have h1 : (i * v + c) / v = i := by
      rw [Nat.mul_comm, Nat.mul_add_div h0, Nat.div_eq_of_lt hc, Nat.add_zero]
    have h2 : (i * v + c) % v = c := by
      rw [Nat.mul_comm, Nat.mul_add_mod, Nat.mod_eq_of_lt hc]
    have hpk : pick L lsb c < L := by unfold pick; split_ifs <;> omega
    rw [if_pos hlt, if_pos (by omega), h1, h2, hp, hO _ i hi _ hpk, ← H.shift_pow, index_eq hb hi]
  constructor
  · intro h A
    obtain ⟨s', hs', e⟩ := h fun t p => A (E * t + (p / v + E - b) % E) (p % v)
    rw [cyc_map φ hT] at hs'
    obtain ⟨s, hs, rfl⟩ := hs'
    refine ⟨s, hs, fun n hn c hc => ?_⟩
    -- word `n` is in block `n / E`, lane `(n % E + b) % E`
    have hr : n % E < E := Nat.mod_lt _ hE
    have ht : n / E < k := by rw [Nat.div_lt_iff_lt_mul hE, Nat.mul_comm]; exact hn
    have hi : (n % E + b) % E < E := Nat.mod_lt _ hE
    have hback : ((n % E + b) % E + E - b) % E = n % E := by
      exact back_eq hb hr
    have hpos : (n % E + b) % E * v + c < v * E := by
      have : ((n % E + b) % E + 1) * v ≤ E * v := Nat.mul_le_mul_right _ (by omega)
      rw [Nat.add_mul] at this
      rw [Nat.mul_comm v E]; omega
    have := e (n / E) ht _ hpos
    rw [key s (n / E) _ c hi hc, hback, Nat.div_add_mod] at this
    rw [this]
    have h1 : ((n % E + b) % E * v + c) / v = (n % E + b) % E := by
      rw [Nat.mul_comm, Nat.mul_add_div h0, Nat.div_eq_of_lt hc, Nat.add_zero]
    have h2 : ((n % E + b) % E * v + c) % v = c := by
      rw [Nat.mul_comm, Nat.mul_add_mod, Nat.mod_eq_of_lt hc]
    show A (E * (n / E) + (((n % E + b) % E * v + c) / v + E - b) % E) (((n % E + b) % E * v + c) % v) = A n c
    rw [h1, h2, hback, Nat.div_add_mod]
  · intro h A
    obtain ⟨s, hs, e⟩ := h fun n c => A (n / E) ((n % E + b) % E * v + c)
    refine ⟨φ s, by rw [cyc_map φ hT]; exact ⟨s, hs, rfl⟩, fun t ht p hp' => ?_⟩
    have hi : p / v < E := by rw [Nat.div_lt_iff_lt_mul h0, Nat.mul_comm]; exact hp'
    have hc : p % v < v := Nat.mod_lt _ h0
    have hj : (p / v + E - b) % E < E := Nat.mod_lt _ hE
    have := key s t (p / v) (p % v) hi hc
    rw [Nat.div_add_mod'] at this
    rw [this]
    have hn : E * t + (p / v + E - b) % E < E * k := by
      have : E * (t + 1) ≤ E * k := Nat.mul_le_mul_left _ (by omega)
      rw [Nat.mul_add] at this; omega
    have e' := e _ hn (p % v) hc
    have h5 : (E * t + (p / v + E - b) % E) / E = t := by
      rw [Nat.mul_add_div hE, Nat.div_eq_of_lt hj, Nat.add_zero]
    have h6 : (E * t + (p / v + E - b) % E) % E = (p / v + E - b) % E := by
      rw [Nat.mul_add_mod, Nat.mod_mod]
    have h7 : ((p / v + E - b) % E + b) % E = p / v := by
      exact fore_eq hb hi
    refine e'.trans ?_
    show A ((E * t + (p / v + E - b) % E) / E) (((E * t + (p / v + E - b) % E) % E + b) % E * v + p % v) = A t p
    rw [h5, h6, h7, Nat.div_add_mod']

/-- One accuracy in one mode. -/
theorem getEquidist_mode {σ : Type} {G : SIMDOps σ} {A : Alg} {lsb : Bool} {L q : ℕ} {pos : ℕ → ℕ → ℕ}
    (hl : Layout A lsb L E q pos)
    {v : ℕ} (h0 : 0 < v) (hv : v ≤ L) {s0 : S} (H : Blocks x (cyc T s0) T E) {work : σ} {a b : ℕ} (hb : b ≤ E)
    (hM : Mode G.gen L E pos work a b x T s0)
    {χ : (ZMod 2)[X]} (hχ : χ.Monic) (hc : aeval T χ s0 = 0) (hB : χ.natDegree ≤ G.gen.bitSize)
    {calc1pos : W128 → Int} (h1 : IsCalc1pos calc1pos) {fuel : ℕ} (hf : 128 * (129 * χ.natDegree) + 129 ≤ fuel) :
    ∃ k, getEquidist G A calc1pos G.gen.bitSize fuel work v = .ok k ∧
      IsGreatest {k | Eqd (fun k => (flip L lsb).comp (x k)) (cyc T s0) v (a + b) (E * k)} k := by
  obtain ⟨S', _, _, Inv, den, T', O', φ, hlin, hi, hd, hT, d, hO⟩ := hM
  obtain ⟨k, e1, e2⟩ := getEquidist_lin hlin hl h0 hv hi hχ (by rw [hd, aeval_map φ hT, hc, map_zero]) hB
    (by omega) h1 hf
  refine ⟨k, e1, ?_⟩
  rw [hd] at e2
  have : {k | Equidist T' ((packed L E v pos lsb).comp O') (cyc T' (φ s0)) (v * E) k} =
      {k | Eqd (fun k => (flip L lsb).comp (x k)) (cyc T s0) v (a + b) (E * k)} := by
    ext k
    refine (equidist_iff H hl.pos hb lsb h0 hv hT hO k).trans ?_
    rw [show a + E * d + b = a + b + E * d by omega]
    exact (H.flip L lsb).eqd_mul d
  rwa [this] at e2

end

end MTT.SIMD
