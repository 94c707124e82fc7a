import Verif.Parity.Props
import Verif.Samples.SFMTCert
import Verif.Samples.DSFMTProps

/-!
# C48, C49 for the SFMT and dSFMT classes
-/

namespace MTT.Parity

open Polynomial PIS W128

/-- Vectors with dual functionals are independent, and span every space of that dimension that contains them. -/
theorem dual_indep {S : Type} [AddCommGroup S] [Module (ZMod 2) S] {N : ℕ} {e : ℕ → S} (φ : ℕ → S →ₗ[ZMod 2] ZMod 2)
    (h : ∀ i j, i < N → j < N → φ i (e j) = if i = j then 1 else 0) :
    LinearIndependent (ZMod 2) fun k : Fin N => e k := by
  rw [Fintype.linearIndependent_iff]
  intro g hg i
  have h1 := congrArg (φ i) hg
  rw [map_sum, map_zero, Finset.sum_eq_single i] at h1
  · rw [map_smul, h i i i.2 i.2, if_pos rfl, smul_eq_mul, mul_one] at h1; exact h1
  · intro j _ hj
    rw [map_smul, h i j i.2 j.2, if_neg (fun h => hj (Fin.ext h.symm)), smul_zero]
  · intro h; exact absurd (Finset.mem_univ _) h

theorem M_eq {S : Type} [AddCommGroup S] [Module (ZMod 2) S] {N : ℕ} {e : ℕ → S}
    (h : LinearIndependent (ZMod 2) fun k : Fin N => e k) (L : Submodule (ZMod 2) S) [FiniteDimensional (ZMod 2) L]
    (hL : Module.finrank (ZMod 2) L = N) (hm : ∀ k, k < N → e k ∈ L) : M N e = L := by
  refine Submodule.eq_of_le_of_finrank_eq (Submodule.span_le.2 ?_) ?_
  · rintro _ ⟨k, rfl⟩; exact hm k k.2
  · unfold M; rw [finrank_span_eq_card h, Fintype.card_fin, hL]

/-- A bit of a word of the ring, as a linear functional. -/
theorem bit_add (x y : W128) (r : ℕ) : (if (x ^^^ y).getLsbD r then (1 : ZMod 2) else 0) =
    (if x.getLsbD r then 1 else 0) + if y.getLsbD r then 1 else 0 := by
  rw [BitVec.getLsbD_xor]
  cases x.getLsbD r <;> cases y.getLsbD r <;> decide

end MTT.Parity

namespace MTT.SFMT

open Polynomial PIS W128 Parity

variable {n : ℕ}

/-- The interface of `ReducibleGenerator` of the class; `getMexp` is sfmtsearch.hpp:564-566. -/
def rops (n mexp : ℕ) : ROps St 128 where
  toGenOps := ops n
  getParity := getParityValue
  setParity := setParityValue
  setOneBit := setOneBit
  mexp := mexp

/-- The state made by `setOneBit k`. -/
def unit (n k : ℕ) : S n :=
  (fun j => Wd.of (if ((j : ℕ) + 1) % n = k / 128 then (1 : W128) <<< (k % 128) else 0), 0)

theorem setOneBit_den {s : St} (hs : Inv n s) {k : ℕ} (hk : k < n * 128) :
    den n (setOneBit k s) = unit n k := by
  have hn : 0 < n := by omega
  have h0 : ∀ k, k < n → (setZero s).state k = 0 := by
    intro k hk
    show (List.range s.size).foldl (fun a i => Function.update a i (mk64 0 0)) s.state k = 0
    rw [hs.size, mk64_zero]
    exact Ring.clear n s.state hk
  have e : (setOneBit k s).state = Function.update (setZero s).state (k / 128) ((1 : W128) <<< (k % 128)) := by
    show Function.update (setZero s).state (k / 128) (setU64 ((setZero s).state (k / 128)) ((k / 64) % 2)
      ((1 : BitVec 64) <<< (k % 64))) = _
    rw [h0 _ (by omega), setU64_one (by omega) (by omega), show 64 * (k / 64 % 2) + k % 64 = k % 128 by omega]
  refine Prod.ext ?_ ?_
  · funext j
    show Wd.of ((setOneBit k s).state ((0 + ((j : ℕ) + 1)) % n)) = _
    rw [e, Nat.zero_add]
    unfold unit
    dsimp only
    by_cases h : ((j : ℕ) + 1) % n = k / 128
    · rw [h, Function.update_self, if_pos rfl]
    · rw [Function.update_of_ne h, if_neg h, h0 _ (Nat.mod_lt _ hn)]
  · show Wd.of (mk64 0 0 &&& keep s.weightMode) = Wd.of 0
    rw [mk64_zero, show (0 : W128) &&& keep s.weightMode = 0 from BitVec.zero_and]

/-- The bits of the state. -/
def bitF (n k : ℕ) : S n →ₗ[ZMod 2] ZMod 2 :=
  linOf (fun x => if (at' x.1 ((k / 128 + n - 1) % n)).getLsbD (k % 128) then 1 else 0) (fun x y => by
    rw [← bit_add, ← at_add]; rfl)

theorem bitF_unit {i j : ℕ} (hi : i < n * 128) (hj : j < n * 128) : bitF n i (unit n j) = if i = j then 1 else 0 := by
  have hn : 0 < n := by omega
  have hlt : (i / 128 + n - 1) % n < n := Nat.mod_lt _ hn
  have e : ((i / 128 + n - 1) % n + 1) % n = i / 128 := by
    rw [Nat.mod_add_mod, show i / 128 + n - 1 + 1 = i / 128 + n by omega, Nat.add_mod_right, Nat.mod_eq_of_lt (by omega)]
  have ha : at' (unit n j).1 ((i / 128 + n - 1) % n) = if i / 128 = j / 128 then (1 : W128) <<< (j % 128) else 0 := by
    unfold at'
    rw [dif_pos hlt]
    show (if ((i / 128 + n - 1) % n + 1) % n = j / 128 then (1 : W128) <<< (j % 128) else 0) = _
    rw [e]
  unfold bitF
  rw [linOf_apply, ha]
  by_cases h : i / 128 = j / 128
  · rw [if_pos h, one_shl_bit (by omega) (by omega)]
    by_cases h' : i = j
    · subst h'; simp
    · rw [if_neg h', decide_eq_false (by omega)]; rfl
  · rw [if_neg h, show (0 : W128).getLsbD (i % 128) = false from BitVec.getLsbD_zero,
      if_neg (show ¬ i = j from fun h' => h (by rw [h']))]
    rfl

/-- The states in weight mode 4: no previous word. -/
def Full (n : ℕ) : Submodule (ZMod 2) (S n) := LinearMap.ker (LinearMap.snd (ZMod 2) (Fin n → Wd 128) (Wd 128))

theorem mem_full {x : S n} : x ∈ Full n ↔ x.2 = 0 := by
  unfold Full; rw [LinearMap.mem_ker]; rfl

theorem units_indep (n : ℕ) : LinearIndependent (ZMod 2) fun k : Fin (n * 128) => unit n k :=
  dual_indep (bitF n) fun _ _ hi hj => bitF_unit hi hj

theorem finrank_full (n : ℕ) : Module.finrank (ZMod 2) (Full n) = n * 128 := by
  have h := LinearMap.finrank_range_add_finrank_ker (LinearMap.snd (ZMod 2) (Fin n → Wd 128) (Wd 128))
  rw [LinearMap.range_eq_top.2 LinearMap.snd_surjective, finrank_top, Module.finrank_prod, Ring.finrank, Wd.finrank] at h
  unfold Full
  exact Nat.add_left_cancel (h.trans (Nat.add_comm _ _))

theorem M_full (n : ℕ) : M (n * 128) (unit n) = Full n :=
  M_eq (units_indep n) (Full n) (finrank_full n) fun _ _ => mem_full.2 rfl

/-- The certified word. -/
def P (n : ℕ) : S n →ₗ[ZMod 2] V :=
  linOf (fun x => bits (at' x.1 (n - 1))) (fun x y => by rw [← bits_xor, ← at_add]; rfl)

theorem parity_den {s : St} (hs : Inv n s) : bits (getParityValue s) = P n (den n s) := by
  have h3 := hs.three
  have hi := hs.index
  unfold P
  rw [linOf_apply]
  unfold at'
  rw [dif_pos (by omega)]
  show bits (s.state s.index) = bits (s.state ((s.index + (n - 1 + 1)) % n))
  rw [show s.index + (n - 1 + 1) = s.index + n by omega, Nat.add_mod_right, Nat.mod_eq_of_lt hi]

/-- **C49.**  In weight mode 4 (the mode of the constructors) the SFMT class is a reducible generator in the sense of the
parity search, for all parameters. -/
theorem redGen (c : Cfg) (mexp : ℕ) (hc : c.rev = false) (h4 : c.weight = 4) (hpos : 1 ≤ c.p.pos1) (hn : c.p.pos1 < n)
    (h3 : 3 ≤ n) (hp : ParOK c.p) :
    RedGen (rops n mexp) (fun s => Inv n s ∧ cfg s = c) (den n) (T n c) (O n c) (unit n) (P n) where
  toLinGen := linGen c hc
  one_inv k s hk hs := by
    have hk' : k < n * 128 := hk
    have := setOneBit_spec hs.1 (i := k) (by omega)
    exact ⟨this.1, this.2.1.trans hs.2⟩
  one_den k s hk hs := setOneBit_den hs.1 hk
  indep := units_indep n
  closed x hx := by
    show T n c x ∈ M (n * 128) (unit n)
    rw [M_full, mem_full]
    show Wd.of (selOf c x.1 &&& keep c.weight) = 0
    rw [h4, show keep 4 = 0 from if_pos rfl, show selOf c x.1 &&& (0 : W128) = 0 from BitVec.and_zero]
    rfl
  inj x hx h := by
    have hx' : x ∈ M (n * 128) (unit n) := hx
    rw [M_full, mem_full] at hx'
    have h1 : T1 n c.p x.1 = 0 := congrArg Prod.fst h
    refine Prod.ext ?_ hx'
    exact (T1_bijective h3 hpos hn hp).1 (h1.trans (map_zero _).symm)
  isZero_iff s hs _ := isZero_iff hs.1
  parity s hs _ := parity_den hs.1

theorem periodCertification_inv {s : St} (hs : Inv n s) (hp : parity s ≠ 0) :
    Inv n (periodCertification s).1 ∧ cfg (periodCertification s).1 = cfg s ∧
      (periodCertification s).1.index = s.index := by
  obtain ⟨h1, h2, -, -⟩ := periodCertification_correct s hp
  rcases two_cases (dot (s.state 0) (parity s)) with h | h
  · obtain ⟨b, -, -, e⟩ := h2 h
    rw [e]
    exact ⟨⟨hs.three, hs.size, hs.index, hs.pos_pos, hs.pos, hs.ok⟩, rfl, rfl⟩
  · rw [h1 h]; exact ⟨hs, rfl, rfl⟩

/-- **C48.**  From any state of any SFMT object in weight mode 4, with index 0 (as after `seed`) and with the parity
vector found by `searchParity`: the state after `periodCertification` recurs only after a multiple of `2^mexp - 1`
steps. -/
theorem certified_period {c : Cfg} {mexp : ℕ} (hc : c.rev = false) (h4 : c.weight = 4) {kernel : KernelFn}
    (hK : KernelSpec kernel) {f q : (ZMod 2)[X]} (hf : Irreducible f) (hdeg : f.natDegree = mexp)
    (hm : (2 ^ mexp - 1).Prime) (hx : ∃ x : S n, x.2 = 0 ∧ x ≠ 0 ∧ aeval (T n c) f x = 0) (hq : IsCoprime f q)
    (hann : ∀ x : S n, x.2 = 0 → aeval (T n c) (f * q) x = 0) {fuel : ℕ} {junk : W128} {g g' : St}
    (hg : Inv n g ∧ cfg g = c) {v : W128} (hrun : searchParity (rops n mexp) words128 fuel kernel junk g f = .ok (v, g'))
    {s : St} (hs : Inv n s) (hsc : cfg s = c) (hi : s.index = 0) (hv : parity s = v) {l : ℕ}
    (hl : den n (stateAt (ops n) (periodCertification s).1 l) = den n (periodCertification s).1) :
    2 ^ mexp - 1 ∣ l := by
  have hR := redGen (n := n) c mexp hc h4 (by rw [← hg.2]; exact hg.1.pos_pos) (by rw [← hg.2]; exact hg.1.pos)
    hs.three (by rw [← hg.2]; exact hg.1.ok)
  have hM : ∀ x : S n, x ∈ M (n * 128) (unit n) ↔ x.2 = 0 := fun x => by rw [M_full, mem_full]
  have hx' : ∃ x ∈ M (rops n mexp).bitSize (unit n), x ≠ 0 ∧ aeval (T n c) f x = 0 := by
    obtain ⟨x, h1, h2⟩ := hx
    exact ⟨x, (hM x).2 h1, h2⟩
  have hv0 : v ≠ 0 := (searchParity_orthogonal hR wordsOK128 hK hf hdeg hx' hg hrun).1
  obtain ⟨p1, p2, p3⟩ := periodCertification_inv hs (by rw [hv]; exact hv0)
  have hodd := (periodCertification_correct s (by rw [hv]; exact hv0)).2.2.1
  refine searchParity_period hR wordsOK128 hK hf hdeg hm hx' hq (fun x h => hann x ((hM x).1 h)) hg hrun
    (s := (periodCertification s).1) ⟨p1, p2.trans hsc⟩ ((hM _).2 ?_) ?_ hl
  · show Wd.of ((periodCertification s).1.previous &&& keep (periodCertification s).1.weightMode) = 0
    have hw : (periodCertification s).1.weightMode = 4 := by
      rw [← h4, ← p2.trans hsc]; rfl
    rw [hw, show keep 4 = 0 from if_pos rfl, show (periodCertification s).1.previous &&& (0 : W128) = 0 from BitVec.and_zero]
    rfl
  · show dot ((periodCertification s).1.state (periodCertification s).1.index) v = 1
    rw [p3, hi, ← hv]; exact hodd

end MTT.SFMT

namespace MTT.DSFMT

open Polynomial PIS W128 Parity
open SFMT (at' at_add one_shl_bit setU64_one)

variable {n : ℕ}

/-- The interface of `ReducibleGenerator` of the class; `getMexp` is dSFMTsearch.hpp:483-485. -/
def rops (n mexp : ℕ) : ROps St 128 where
  toGenOps := ops n
  getParity := getParityValue
  setParity := setParityValue
  setOneBit := setOneBit
  mexp := mexp

/-- The state made by `setOneBit k`. -/
def unit (n k : ℕ) : S n :=
  if k < n * 104 then
    ((fun j => Wd.of (if ((j : ℕ) + 1) % n = k / 104 then (1 : W128) <<< (64 * ((k / 52) % 2) + k % 52) else 0), 0), 0)
  else ((0, Wd.of ((1 : W128) <<< (k - n * 104))), 0)

theorem setOneBit_den {s : St} (hs : Inv n s) {k : ℕ} (hk : k < n * 104 + 128) :
    den n (setOneBit k s) = unit n k := by
  have h2 := hs.two
  have hn : 0 < n := by omega
  have h0 : ∀ k, k < n → (setZero s).state k = 0 := fun k hk => zero_state hs.size hk
  have hsz : (setZero s).size = n := hs.size
  have hl0 : (setZero s).lung = 0 := mk64_zero
  have hprev : ∀ m, Wd.of (mk64 0 0 &&& keep m) = Wd.of 0 := fun m => by
    rw [mk64_zero, show (0 : W128) &&& keep m = 0 from BitVec.zero_and]
  unfold unit
  by_cases h : k < n * 104
  · have e : setOneBit k s = { setZero s with
        state := Function.update (setZero s).state (k / 104) ((1 : W128) <<< (64 * ((k / 52) % 2) + k % 52)) } := by
      unfold setOneBit
      dsimp only
      rw [hsz, if_pos h, h0 _ (by omega), setU64_one (by omega) (by omega)]
    rw [e, if_pos h]
    refine Prod.ext (Prod.ext ?_ ?_) (hprev _)
    · funext j
      show Wd.of (Function.update (setZero s).state (k / 104) ((1 : W128) <<< (64 * ((k / 52) % 2) + k % 52))
        ((0 + ((j : ℕ) + 1)) % n)) = _
      rw [Nat.zero_add]
      dsimp only
      by_cases h : ((j : ℕ) + 1) % n = k / 104
      · rw [h, Function.update_self, if_pos rfl]
      · rw [Function.update_of_ne h, if_neg h, h0 _ (Nat.mod_lt _ hn)]
    · exact congrArg Wd.of hl0
  · have e : setOneBit k s = { setZero s with lung := (1 : W128) <<< (k - n * 104) } := by
      unfold setOneBit
      dsimp only
      rw [hsz, if_neg h, hl0, setU64_one (by omega) (by omega),
        show 64 * ((k - n * 104) / 64 % 2) + (k - n * 104) % 64 = k - n * 104 by omega]
    rw [e, if_neg h]
    refine Prod.ext (Prod.ext ?_ rfl) (hprev _)
    funext j
    show Wd.of ((setZero s).state ((0 + ((j : ℕ) + 1)) % n)) = Wd.of 0
    rw [h0 _ (Nat.mod_lt _ hn)]

/-- The bits of the state. -/
def bitF (n k : ℕ) : S n →ₗ[ZMod 2] ZMod 2 :=
  linOf (fun x => if (if k < n * 104 then at' x.1.1 ((k / 104 + n - 1) % n) else x.1.2.val).getLsbD
      (if k < n * 104 then 64 * ((k / 52) % 2) + k % 52 else k - n * 104) then 1 else 0) (fun x y => by
    rw [← bit_add]
    by_cases h : k < n * 104
    · simp only [if_pos h]; rw [← at_add]; rfl
    · simp only [if_neg h]; rfl)

theorem bitF_unit {i j : ℕ} (hi : i < n * 104 + 128) (hj : j < n * 104 + 128) (hn : 0 < n) :
    bitF n i (unit n j) = if i = j then 1 else 0 := by
  have z : ∀ r, (0 : W128).getLsbD r = false := fun r => BitVec.getLsbD_zero
  unfold bitF
  rw [linOf_apply]
  by_cases h : i < n * 104
  · simp only [if_pos h]
    have hlt : (i / 104 + n - 1) % n < n := Nat.mod_lt _ hn
    have e : ((i / 104 + n - 1) % n + 1) % n = i / 104 := by
      rw [Nat.mod_add_mod, show i / 104 + n - 1 + 1 = i / 104 + n by omega, Nat.add_mod_right, Nat.mod_eq_of_lt (by omega)]
    have ha : at' (unit n j).1.1 ((i / 104 + n - 1) % n) =
        if j < n * 104 ∧ i / 104 = j / 104 then (1 : W128) <<< (64 * ((j / 52) % 2) + j % 52) else 0 := by
      unfold at'
      rw [dif_pos hlt]
      unfold unit
      by_cases h' : j < n * 104
      · rw [if_pos h']
        show (if ((i / 104 + n - 1) % n + 1) % n = j / 104 then (1 : W128) <<< (64 * ((j / 52) % 2) + j % 52) else 0) = _
        rw [e]
        by_cases h'' : i / 104 = j / 104
        · rw [if_pos h'', if_pos ⟨h', h''⟩]
        · rw [if_neg h'', if_neg (fun h => h'' h.2)]
      · rw [if_neg h', if_neg (fun h => h' h.1)]; rfl
    rw [ha]
    by_cases h' : j < n * 104 ∧ i / 104 = j / 104
    · rw [if_pos h', one_shl_bit (by omega) (by omega)]
      by_cases h'' : i = j
      · subst h''; simp
      · rw [if_neg h'', decide_eq_false (by omega)]; rfl
    · rw [if_neg h', z, if_neg (show ¬ i = j from fun h'' => h' (by subst h''; exact ⟨h, rfl⟩))]; rfl
  · simp only [if_neg h]
    have ha : (unit n j).1.2.val = if j < n * 104 then 0 else (1 : W128) <<< (j - n * 104) := by
      unfold unit
      by_cases h' : j < n * 104
      · rw [if_pos h', if_pos h']; rfl
      · rw [if_neg h', if_neg h']; rfl
    rw [ha]
    by_cases h' : j < n * 104
    · rw [if_pos h', z, if_neg (show ¬ i = j by omega)]; rfl
    · rw [if_neg h', one_shl_bit (by omega) (by omega)]
      by_cases h'' : i = j
      · subst h''; simp
      · rw [if_neg h'', decide_eq_false (by omega)]; rfl

/-- The states in weight mode 2 without exponent bits: no previous word. -/
def Full (n : ℕ) : Submodule (ZMod 2) (S n) := (Low n).prod ⊥

theorem mem_full {x : S n} : x ∈ Full n ↔ x.1 ∈ Low n ∧ x.2 = 0 := by
  unfold Full; rw [Submodule.mem_prod, Submodule.mem_bot]

theorem units_indep (hn : 0 < n) : LinearIndependent (ZMod 2) fun k : Fin (n * 104 + 128) => unit n k :=
  dual_indep (bitF n) fun _ _ hi hj => bitF_unit hi hj hn

theorem finrank_full (n : ℕ) : Module.finrank (ZMod 2) (Full n) = n * 104 + 128 := by
  have h1 : Full n = (Low n).map (LinearMap.inl (ZMod 2) ((Fin n → Wd 128) × Wd 128) (Wd 128)) := by
    ext x
    rw [mem_full, Submodule.mem_map]
    constructor
    · intro h; exact ⟨x.1, h.1, Prod.ext rfl h.2.symm⟩
    · rintro ⟨y, hy, rfl⟩; exact ⟨hy, rfl⟩
  rw [h1, ← (Submodule.equivMapOfInjective _ LinearMap.inl_injective (Low n)).finrank_eq, finrank_low]
  rfl

theorem unit_mem (k : ℕ) : unit n k ∈ Full n := by
  rw [mem_full]
  unfold unit
  by_cases h : k < n * 104
  · rw [if_pos h]
    refine ⟨fun j => ?_, rfl⟩
    show (if ((j : ℕ) + 1) % n = k / 104 then (1 : W128) <<< (64 * ((k / 52) % 2) + k % 52) else 0) &&& DSFMT.hi = 0
    by_cases h' : ((j : ℕ) + 1) % n = k / 104
    · rw [if_pos h']
      apply BitVec.eq_of_getLsbD_eq
      intro b hb
      rw [BitVec.getLsbD_and, one_shl_bit (by omega) hb, hi_bit b hb,
        show (0 : W128).getLsbD b = false from BitVec.getLsbD_zero]
      by_cases hb' : b = 64 * ((k / 52) % 2) + k % 52
      · rw [decide_eq_false (show ¬ (52 ≤ b ∧ b < 64) by omega), decide_eq_false (show ¬ (116 ≤ b) by omega)]; simp
      · rw [decide_eq_false hb']; simp
    · rw [if_neg h']; exact BitVec.zero_and
  · rw [if_neg h]
    exact ⟨fun j => BitVec.zero_and, rfl⟩

theorem M_full (hn : 0 < n) : M (n * 104 + 128) (unit n) = Full n :=
  M_eq (units_indep hn) (Full n) (finrank_full n) fun _ _ => unit_mem _

/-- The certified word: the lung. -/
def P (n : ℕ) : S n →ₗ[ZMod 2] V := linOf (fun x => bits x.1.2.val) (fun x y => by rw [← bits_xor]; rfl)

/-- **C49.**  In weight mode 2 (the mode of the constructors) the dSFMT class is a reducible generator in the sense of
the parity search, for all parameters made by the class. -/
theorem redGen (c : Cfg) (mexp : ℕ) (h2 : c.weight = 2) (hpos : 1 ≤ c.p.pos1) (hn : c.p.pos1 < n)
    (hp : MskOK c.p) :
    RedGen (rops n mexp) (fun s => Inv n s ∧ cfg s = c) (den n) (T n c) (O n c) (unit n) (P n) where
  toLinGen := linGen c
  one_inv k s hk hs := by
    have hk' : k < n * 104 + 128 := hk
    have := setOneBit_spec hs.1 (i := k) (by omega)
    exact ⟨this.1, this.2.1.trans hs.2⟩
  one_den k s hk hs := setOneBit_den hs.1 hk
  indep := units_indep (by omega)
  closed x hx := by
    have hx' : x ∈ M (n * 104 + 128) (unit n) := hx
    show T n c x ∈ M (n * 104 + 128) (unit n)
    rw [M_full (by omega), mem_full] at hx' ⊢
    refine ⟨T1_low hp hx'.1, ?_⟩
    show Wd.of (selOf c x.1 &&& keep c.weight) = 0
    rw [h2, show keep 2 = 0 from if_pos rfl, show selOf c x.1 &&& (0 : W128) = 0 from BitVec.and_zero]
    rfl
  inj x hx h := by
    have hx' : x ∈ M (n * 104 + 128) (unit n) := hx
    rw [M_full (by omega), mem_full] at hx'
    have h1 : T1 n c.p x.1 = 0 := congrArg Prod.fst h
    refine Prod.ext ?_ hx'.2
    exact (T1_bijective hpos hn).1 (h1.trans (map_zero _).symm)
  isZero_iff s hs _ := isZero_partial hs.1 (by rw [← h2, ← hs.2]; rfl)
  parity s hs _ := rfl

end MTT.DSFMT
