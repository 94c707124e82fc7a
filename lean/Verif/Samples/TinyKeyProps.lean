import Verif.Samples.TinyRefProps
import Mathlib.Data.Fin.VecNotation
import Mathlib.Data.Fintype.Prod

/-!
# C112: every word of a key of the TinyMT reference code counts
-/

namespace MTT.TinyRef

variable {w : ℕ}

/-! ## Helpers -/

theorem upd_ne {p q : Fin 4} (h : q ≠ p) (st : Fin 4 → BitVec w) (x : BitVec w) : Function.update st p x q = st q :=
  Function.update_of_ne h _ _

/-- One step of the first loop, for the four indices in the order in which they are used. -/
theorem step1_inj {f : BitVec w → BitVec w} (hf : Function.Injective f) {p q s t : Fin 4} (hpq : p ≠ q) (hps : p ≠ s) (hpt : p ≠ t)
    (hqs : q ≠ s) (hqt : q ≠ t) (hst : s ≠ t) (hall : ∀ i, i = p ∨ i = q ∨ i = s ∨ i = t) {a b : Fin 4 → BitVec w} {k k' c : BitVec w}
    (h : Function.update (Function.update (Function.update a q (a q + f (a p ^^^ a q ^^^ a t))) s (a s + (f (a p ^^^ a q ^^^ a t) + (k + c)))) p
        (f (a p ^^^ a q ^^^ a t) + (k + c)) =
      Function.update (Function.update (Function.update b q (b q + f (b p ^^^ b q ^^^ b t))) s (b s + (f (b p ^^^ b q ^^^ b t) + (k' + c)))) p
        (f (b p ^^^ b q ^^^ b t) + (k' + c))) :
    (k = k' → a = b) ∧ (a = b → k = k') := by
  have hp := congrFun h p
  have hq := congrFun h q
  have hs := congrFun h s
  have ht := congrFun h t
  rw [Function.update_self, Function.update_self] at hp
  rw [upd_ne hpq.symm, upd_ne hpq.symm, upd_ne hqs, upd_ne hqs, Function.update_self, Function.update_self] at hq
  rw [upd_ne hps.symm, upd_ne hps.symm, Function.update_self, Function.update_self, hp] at hs
  rw [upd_ne hpt.symm, upd_ne hpt.symm, upd_ne hst.symm, upd_ne hst.symm, upd_ne hqt.symm, upd_ne hqt.symm] at ht
  have es := (BitVec.add_left_inj _).1 hs
  constructor
  · rintro rfl
    have e := (BitVec.add_left_inj _).1 hp
    rw [e] at hq
    have eq := (BitVec.add_left_inj _).1 hq
    have e' := hf e
    rw [eq, ht] at e'
    have ep : a p = b p := (BitVec.xor_left_inj _).1 ((BitVec.xor_left_inj _).1 e')
    funext i
    rcases hall i with rfl | rfl | rfl | rfl <;> assumption
  · rintro rfl
    exact (BitVec.add_left_inj _).1 ((BitVec.add_right_inj _).1 hp)

/-- The same for the second loop. -/
theorem step2_inj {f : BitVec w → BitVec w} (hf : Function.Injective f) {p q s t : Fin 4} (hpq : p ≠ q) (hps : p ≠ s) (hpt : p ≠ t)
    (hqs : q ≠ s) (hqt : q ≠ t) (hst : s ≠ t) (hall : ∀ i, i = p ∨ i = q ∨ i = s ∨ i = t) {a b : Fin 4 → BitVec w} {c : BitVec w}
    (h : Function.update (Function.update (Function.update a q (a q ^^^ f (a p + a q + a t))) s (a s ^^^ (f (a p + a q + a t) - c))) p
        (f (a p + a q + a t) - c) =
      Function.update (Function.update (Function.update b q (b q ^^^ f (b p + b q + b t))) s (b s ^^^ (f (b p + b q + b t) - c))) p
        (f (b p + b q + b t) - c)) : a = b := by
  have hp := congrFun h p
  have hq := congrFun h q
  have hs := congrFun h s
  have ht := congrFun h t
  rw [Function.update_self, Function.update_self] at hp
  rw [upd_ne hpq.symm, upd_ne hpq.symm, upd_ne hqs, upd_ne hqs, Function.update_self, Function.update_self] at hq
  rw [upd_ne hps.symm, upd_ne hps.symm, Function.update_self, Function.update_self, hp] at hs
  rw [upd_ne hpt.symm, upd_ne hpt.symm, upd_ne hst.symm, upd_ne hst.symm, upd_ne hqt.symm, upd_ne hqt.symm] at ht
  have es := (BitVec.xor_left_inj _).1 hs
  have e : f (a p + a q + a t) = f (b p + b q + b t) := by
    have := congrArg (· + c) hp
    simpa only [BitVec.sub_add_cancel] using this
  rw [e] at hq
  have eq := (BitVec.xor_left_inj _).1 hq
  have e' := hf e
  rw [eq, ht] at e'
  have ep : a p = b p := (BitVec.add_left_inj _).1 ((BitVec.add_left_inj _).1 e')
  funext i
  rcases hall i with rfl | rfl | rfl | rfl <;> assumption

theorem round1_inj {f : BitVec w → BitVec w} (hf : Function.Injective f) {i : ℕ} (hi : i < 4) {a b : Fin 4 → BitVec w} {k k' : BitVec w}
    (h : (round1 f (a, i) k).1 = (round1 f (b, i) k').1) : (k = k' → a = b) ∧ (a = b → k = k') := by
  unfold round1 at h
  dsimp only at h
  have hne : Fin.ofNat 4 (i + 1 + 1) ≠ Fin.ofNat 4 (i + 1) := by revert hi; revert i; intro i _ _; interval_cases i <;> decide
  rw [upd_ne hne, upd_ne hne] at h
  refine step1_inj hf (p := Fin.ofNat 4 i) (q := Fin.ofNat 4 (i + 1)) (s := Fin.ofNat 4 (i + 1 + 1)) (t := Fin.ofNat 4 (i + 4 - 1))
    ?_ ?_ ?_ ?_ ?_ ?_ ?_ h <;> clear h hne <;> interval_cases i <;> decide

theorem round2_inj {f : BitVec w → BitVec w} (hf : Function.Injective f) {i : ℕ} (hi : i < 4) {a b : Fin 4 → BitVec w}
    (h : (round2 f (a, i)).1 = (round2 f (b, i)).1) : a = b := by
  unfold round2 at h
  dsimp only at h
  have hne : Fin.ofNat 4 (i + 1 + 1) ≠ Fin.ofNat 4 (i + 1) := by revert hi; revert i; intro i _ _; interval_cases i <;> decide
  rw [upd_ne hne, upd_ne hne] at h
  refine step2_inj hf (p := Fin.ofNat 4 i) (q := Fin.ofNat 4 (i + 1)) (s := Fin.ofNat 4 (i + 1 + 1)) (t := Fin.ofNat 4 (i + 4 - 1))
    ?_ ?_ ?_ ?_ ?_ ?_ ?_ h <;> clear h hne <;> interval_cases i <;> decide

theorem round1_snd (f : BitVec w → BitVec w) (p : (Fin 4 → BitVec w) × ℕ) (k : BitVec w) : (round1 f p k).2 = (p.2 + 1) % 4 := rfl

theorem round2_snd (f : BitVec w → BitVec w) (p : (Fin 4 → BitVec w) × ℕ) : (round2 f p).2 = (p.2 + 1) % 4 := rfl

/-- Pairs with the same index and different arrays stay so. -/
def Differ (p q : (Fin 4 → BitVec w) × ℕ) : Prop := p.2 = q.2 ∧ p.2 < 4 ∧ p.1 ≠ q.1

theorem Differ.round1 {f : BitVec w → BitVec w} (hf : Function.Injective f) {p q : (Fin 4 → BitVec w) × ℕ} (h : Differ p q) (k : BitVec w) :
    Differ (round1 f p k) (round1 f q k) := by
  obtain ⟨a, i⟩ := p
  obtain ⟨b, i'⟩ := q
  obtain ⟨rfl, h2, h3⟩ := h
  exact ⟨rfl, Nat.mod_lt _ (by omega), fun e => h3 ((round1_inj hf h2 e).1 rfl)⟩

theorem Differ.round2 {f : BitVec w → BitVec w} (hf : Function.Injective f) {p q : (Fin 4 → BitVec w) × ℕ} (h : Differ p q) :
    Differ (round2 f p) (round2 f q) := by
  obtain ⟨a, i⟩ := p
  obtain ⟨b, i'⟩ := q
  obtain ⟨rfl, h2, h3⟩ := h
  exact ⟨rfl, Nat.mod_lt _ (by omega), fun e => h3 (round2_inj hf h2 e)⟩

theorem Differ.foldl {f : BitVec w → BitVec w} (hf : Function.Injective f) : ∀ (l : List (BitVec w)) {p q : (Fin 4 → BitVec w) × ℕ},
    Differ p q → Differ (l.foldl (TinyRef.round1 f) p) (l.foldl (TinyRef.round1 f) q)
  | [], _, _, h => h
  | k :: l, _, _, h => Differ.foldl hf l (h.round1 hf k)

theorem iterate_differ {F : (Fin 4 → BitVec w) × ℕ → (Fin 4 → BitVec w) × ℕ} (hF : ∀ p q, Differ p q → Differ (F p) (F q)) :
    ∀ n {p q}, Differ p q → Differ (F^[n] p) (F^[n] q)
  | 0, _, _, h => h
  | n + 1, _, _, h => iterate_differ hF n (hF _ _ h)

theorem foldl_set {f : BitVec w → BitVec w} (hf : Function.Injective f) : ∀ (l : List (BitVec w)) (j : ℕ) {a b : BitVec w}
    {p : (Fin 4 → BitVec w) × ℕ}, j < l.length → p.2 < 4 → a ≠ b →
    Differ ((l.set j a).foldl (round1 f) p) ((l.set j b).foldl (round1 f) p)
  | [], _, _, _, _, hj, _, _ => by cases hj
  | x :: l, 0, a, b, p, _, hp, hne => by
    refine Differ.foldl hf l (p := round1 f p a) (q := round1 f p b) ⟨rfl, Nat.mod_lt _ (by omega), fun e => hne ?_⟩
    obtain ⟨c, i⟩ := p
    exact (round1_inj hf hp e).2 rfl
  | x :: l, j + 1, a, b, p, hj, hp, hne =>
    foldl_set hf l j (p := round1 f p x) (by simpa using hj) (Nat.mod_lt _ (by omega)) hne

theorem arrayLoop_word {f1 f2 : BitVec w → BitVec w} (h1 : Function.Injective f1) (h2 : Function.Injective f2) (st : Fin 4 → BitVec w)
    (key : List (BitVec w)) {j : ℕ} (hj : j < key.length) {a b : BitVec w} (hne : a ≠ b) :
    arrayLoop f1 f2 st (key.set j a) ≠ arrayLoop f1 f2 st (key.set j b) := by
  have ht : ∀ x (n : ℕ), key.length ≤ n → (key.set j x).take n = key.set j x := fun x n hn =>
    List.take_of_length_le (by rw [List.length_set]; exact hn)
  unfold arrayLoop
  simp only [List.length_set]
  obtain ⟨c, hc⟩ : ∃ c, c = (if key.length + 1 > 8 then key.length + 1 else 8) - 1 := ⟨_, rfl⟩
  have hkc : key.length ≤ c := by rw [hc]; split <;> omega
  rw [← hc, ht a c hkc, ht b c hkc]
  have hd := foldl_set h1 key j (p := (Function.update (Function.update (Function.update st 1 (st 1 + f1 (st 0 ^^^ st 1 ^^^ st 3))) 2
    (Function.update st 1 (st 1 + f1 (st 0 ^^^ st 1 ^^^ st 3)) 2 + (f1 (st 0 ^^^ st 1 ^^^ st 3) + BitVec.ofNat w key.length))) 0
    (f1 (st 0 ^^^ st 1 ^^^ st 3) + BitVec.ofNat w key.length), 1)) hj (show (1 : ℕ) < 4 by omega) hne
  exact (iterate_differ (fun p q h => h.round2 h2) 4
    (iterate_differ (F := fun p => round1 f1 p 0) (fun p q h => h.round1 h1 0) (c - min c key.length) hd)).2.2

theorem differ_mk {x y : Fin 4 → BitVec w} (h : x ≠ y) : Differ (x, 1) (y, 1) := ⟨rfl, (show (1 : ℕ) < 4 by omega), h⟩

theorem foldl_zeros (f : BitVec w → BitVec w) : ∀ (m : ℕ) (p : (Fin 4 → BitVec w) × ℕ),
    (List.replicate m 0).foldl (round1 f) p = (fun p => round1 f p 0)^[m] p
  | 0, _ => rfl
  | m + 1, p => foldl_zeros f m (round1 f p 0)

theorem arrayLoop_zeros {f1 f2 : BitVec w → BitVec w} (h1 : Function.Injective f1) (h2 : Function.Injective f2) (hw : 3 ≤ w)
    (st : Fin 4 → BitVec w) (key : List (BitVec w)) {m : ℕ} (hm : 0 < m) (hl : key.length + m ≤ 7) :
    arrayLoop f1 f2 st (key ++ List.replicate m 0) ≠ arrayLoop f1 f2 st key := by
  have hc : ∀ n, n ≤ 7 → (if n + 1 > 8 then n + 1 else 8) - 1 = 7 := fun n hn => by split <;> omega
  unfold arrayLoop
  simp only [List.length_append, List.length_replicate]
  rw [hc _ hl, hc key.length (by omega), List.take_of_length_le (by simpa using hl), List.take_of_length_le (l := key) (by omega),
    List.foldl_append, foldl_zeros, ← Function.iterate_add_apply, min_eq_right hl, min_eq_right (by omega : key.length ≤ 7),
    show 7 - (key.length + m) + m = 7 - key.length by omega]
  refine (iterate_differ (fun p q h => h.round2 h2) 4 (iterate_differ (F := fun p => round1 f1 p 0) (fun p q h => h.round1 h1 0)
    (7 - key.length) (Differ.foldl h1 key (differ_mk fun e => ?_)))).2.2
  have e0 := congrFun e 0
  simp only [Function.update_self] at e0
  have e1 := congrArg BitVec.toNat ((BitVec.add_right_inj _).1 e0)
  have h8 : 8 ≤ 2 ^ w := (show 2 ^ 3 ≤ 2 ^ w from Nat.pow_le_pow_right (by omega) hw)
  rw [BitVec.toNat_ofNat, BitVec.toNat_ofNat, Nat.mod_eq_of_lt (by omega), Nat.mod_eq_of_lt (by omega)] at e1
  omega

theorem ini_inj {k : ℕ} (hk : 1 ≤ k) {m i : BitVec w} (h : m * i = 1#w) : Function.Injective fun x : BitVec w => (x ^^^ (x >>> k)) * m := by
  intro x y e
  have e1 := congrArg (· * i) e
  simp only [BitVec.mul_assoc, h] at e1
  rw [BitVec.mul_one, BitVec.mul_one] at e1
  exact shr_inj hk e1

theorem ini1_32_inj : Function.Injective ini1_32 := ini_inj (by decide) (i := 0xfee058c5) (by decide)
theorem ini2_32_inj : Function.Injective ini2_32 := ini_inj (by decide) (i := 0x6a76ae6d) (by decide)
theorem ini1_64_inj : Function.Injective ini1_64 := ini_inj (by decide) (i := 0x4dff102f0a22ac29) (by decide)
theorem ini2_64_inj : Function.Injective ini2_64 := ini_inj (by decide) (i := 0x9250ef07f490e51) (by decide)

theorem msb_of_and {x y : BitVec 32} (h : x &&& 0x7fffffff = y &&& 0x7fffffff) (hm : x.msb = y.msb) : x = y := by
  apply BitVec.eq_of_getLsbD_eq
  intro i hi
  rcases Nat.lt_or_ge i 31 with h31 | h31
  · have := congrArg (fun b => BitVec.getLsbD b i) h
    simp only [BitVec.getLsbD_and] at this
    have hb : (0x7fffffff : BitVec 32).getLsbD i = true := by interval_cases i <;> decide
    rw [hb, Bool.and_true, Bool.and_true] at this
    exact this
  · have : i = 31 := by omega
    subst this
    simpa only [BitVec.msb_eq_getLsbD_last] using hm

/-- Two arrays which lead to equivalent generators, are both certified or both not, and agree in the ignored bit, are equal. -/
theorem withStatus_inj (r : T32) {x y : Fin 4 → BitVec 32}
    (h : Eq32 (next32^[8] (certify32 (r.withStatus x))) (next32^[8] (certify32 (r.withStatus y))))
    (hz : den32 (r.withStatus x) = 0 ↔ den32 (r.withStatus y) = 0) (hm : (x 0).msb = (y 0).msb) : x = y := by
  rw [Eq32, ← den32_eq, (next32_iter _ 8).2, (next32_iter _ 8).2] at h
  have e : ∀ s, TinyMT.T (certify32 (r.withStatus s)).obj = TinyMT.T r.obj := fun s => by
    unfold certify32
    split <;> rfl
  rw [e, e] at h
  have h := T_pow_injective _ _ h
  have key : den32 (r.withStatus x) = den32 (r.withStatus y) := by
    by_cases hx : den32 (r.withStatus x) = 0
    · rw [hx, hz.1 hx]
    · have hy := fun h => hx (hz.2 h)
      rw [den32_eq_zero] at hx hy
      unfold certify32 at h
      rwa [if_neg hx, if_neg hy] at h
  rw [den32_eq] at key
  obtain ⟨k0, k1, k2, k3⟩ := key
  funext i
  have k0' := msb_of_and k0 hm
  fin_cases i
  · exact k0'
  · exact k1
  · exact k2
  · exact k3

theorem card_le_four (r : T32) (A : BitVec 32 → Fin 4 → BitVec 32) (hA : Function.Injective A) (vals : Finset (BitVec 32))
    (hv : ∀ a ∈ vals, ∀ b ∈ vals, Eq32 (next32^[8] (certify32 (r.withStatus (A a)))) (next32^[8] (certify32 (r.withStatus (A b))))) :
    vals.card ≤ 4 := by
  classical
  have := Finset.card_le_card_of_injOn (fun a => (decide (den32 (r.withStatus (A a)) = 0), (A a 0).msb)) (s := vals)
    (t := (Finset.univ : Finset (Bool × Bool))) (fun _ _ => Finset.mem_univ _) (fun a ha b hb hab => by
      have h1 := congrArg Prod.fst hab
      have h2 := congrArg Prod.snd hab
      exact hA (withStatus_inj r (hv a ha b hb) (decide_eq_decide.1 h1) h2))
  exact this.trans (by decide)

/-! ## The claims -/

/-- **C112.**  `tinymt32_init_by_array` uses every word of its key, for every parameter set and every key that it accepts: the keys that
agree outside one word `j` and lead to the same generator (the same parameters, and the same state apart from the bit that
the recursion ignores) have at most four different values of this word. -/
theorem initByArray32_word (r : T32) (key : List (BitVec 32)) {j : ℕ} (hj : j < key.length) (vals : Finset (BitVec 32))
    (hv : ∀ a ∈ vals, ∀ b ∈ vals, ∃ x y, initByArray32 r (key.set j a) = some x ∧ initByArray32 r (key.set j b) = some y ∧ Eq32 x y) :
    vals.card ≤ 4 := by
  obtain ⟨A, hA, hAi⟩ : ∃ A : BitVec 32 → Fin 4 → BitVec 32, (∀ a x, initByArray32 r (key.set j a) = some x →
      x = next32^[8] (certify32 (r.withStatus (A a)))) ∧ Function.Injective A := by
    refine ⟨fun a => arrayLoop ini1_32 ini2_32 ({ r with s0 := 0, s1 := r.mat1, s2 := r.mat2, s3 := r.tmat } : T32).status (key.set j a),
      fun a x hx => ?_, fun a b hab => ?_⟩
    · unfold initByArray32 at hx
      split at hx
      · exact (Option.some.inj hx).symm
      · cases hx
    · by_contra hne
      exact arrayLoop_word ini1_32_inj ini2_32_inj _ key hj hne hab
  exact card_le_four r A hAi vals fun a ha b hb => by
    obtain ⟨x, y, hx, hy, hxy⟩ := hv a ha b hb
    rwa [hA a x hx, hA b y hy] at hxy

/-- **C112.**  So each word can be changed so that another generator results, whatever the other words are. -/
theorem initByArray32_uses (r : T32) (key : List (BitVec 32)) (hk : key.length < 2 ^ 31 - 1) {j : ℕ} (hj : j < key.length) :
    ∃ b x y, initByArray32 r key = some x ∧ initByArray32 r (key.set j b) = some y ∧ ¬ Eq32 x y := by
  have tot : ∀ k : List (BitVec 32), k.length < 2 ^ 31 - 1 → ∃ x, initByArray32 r k = some x := fun k h =>
    ((initByArray32_never_zero r k).1 h).imp fun _ h => h.1
  by_contra hno
  have heq : ∀ b x y, initByArray32 r key = some x → initByArray32 r (key.set j b) = some y → Eq32 x y := by
    intro b x y hx hy
    by_contra h
    exact hno ⟨b, x, y, hx, hy, h⟩
  obtain ⟨x, hx⟩ := tot key hk
  have := initByArray32_word r key hj {0, 1, 2, 3, 4} (fun a _ b _ => by
    obtain ⟨y, hy⟩ := tot (key.set j a) (by rwa [List.length_set])
    obtain ⟨z, hz⟩ := tot (key.set j b) (by rwa [List.length_set])
    have h1 := heq a x y hx hy
    have h2 := heq b x z hx hz
    refine ⟨y, z, hy, hz, ?_⟩
    unfold Eq32 at h1 h2 ⊢
    exact ⟨h1.1.symm.trans h2.1, h1.2.1.symm.trans h2.2.1, h1.2.2.1.symm.trans h2.2.2.1, h1.2.2.2.symm.trans h2.2.2.2⟩)
  revert this
  decide

/-- **C112.**  Two keys of the same length that differ in exactly one word give different arrays of four words, in `tinymt32` and in `tinymt64`
(whose state consists of the exclusive ors of the first and of the last two words of the array). -/
theorem array_word (r : T32) (r' : T64) :
    (∀ (key : List (BitVec 32)) (j : ℕ) (a b : BitVec 32), j < key.length → a ≠ b →
      arrayLoop ini1_32 ini2_32 ![0, r.mat1, r.mat2, r.tmat] (key.set j a) ≠
        arrayLoop ini1_32 ini2_32 ![0, r.mat1, r.mat2, r.tmat] (key.set j b)) ∧
    ∀ (key : List (BitVec 64)) (j : ℕ) (a b : BitVec 64), j < key.length → a ≠ b →
      arrayLoop ini1_64 ini2_64 (arr4 0 (r'.mat1.setWidth 64) (r'.mat2.setWidth 64) r'.tmat) (key.set j a) ≠
        arrayLoop ini1_64 ini2_64 (arr4 0 (r'.mat1.setWidth 64) (r'.mat2.setWidth 64) r'.tmat) (key.set j b) :=
  ⟨fun key _ _ _ hj h => arrayLoop_word ini1_32_inj ini2_32_inj _ key hj h,
    fun key _ _ _ hj h => arrayLoop_word ini1_64_inj ini2_64_inj _ key hj h⟩

/-- **C112.**  The number of words counts too: appending zeros to a key, up to the seven words that are always mixed in, gives another array,
although the same words are added in the same steps. -/
theorem array_length (r : T32) (r' : T64) :
    (∀ (key : List (BitVec 32)) (m : ℕ), 0 < m → key.length + m ≤ 7 →
      arrayLoop ini1_32 ini2_32 ![0, r.mat1, r.mat2, r.tmat] (key ++ List.replicate m 0) ≠
        arrayLoop ini1_32 ini2_32 ![0, r.mat1, r.mat2, r.tmat] key) ∧
    ∀ (key : List (BitVec 64)) (m : ℕ), 0 < m → key.length + m ≤ 7 →
      arrayLoop ini1_64 ini2_64 (arr4 0 (r'.mat1.setWidth 64) (r'.mat2.setWidth 64) r'.tmat) (key ++ List.replicate m 0) ≠
        arrayLoop ini1_64 ini2_64 (arr4 0 (r'.mat1.setWidth 64) (r'.mat2.setWidth 64) r'.tmat) key :=
  ⟨fun key _ hm hl => arrayLoop_zeros ini1_32_inj ini2_32_inj (by omega) _ key hm hl,
    fun key _ hm hl => arrayLoop_zeros ini1_64_inj ini2_64_inj (by omega) _ key hm hl⟩

/-- A key of twelve words, longer than the eight steps that are always made: the last word counts. -/
example : ∃ b x y, initByArray32 (tiny32 1) [1, 2, 3, 4, 5, 6, 7, 8, 9, 10, 11, 12] = some x ∧
    initByArray32 (tiny32 1) [1, 2, 3, 4, 5, 6, 7, 8, 9, 10, 11, b] = some y ∧ ¬ Eq32 x y :=
  initByArray32_uses (tiny32 1) [1, 2, 3, 4, 5, 6, 7, 8, 9, 10, 11, 12] (by decide) (j := 11) (by decide)

end MTT.TinyRef
