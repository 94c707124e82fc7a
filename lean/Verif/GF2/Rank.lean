import Verif.GF2.Engine
import Verif.PIS.Result
import Verif.PIS.Bounds

/-!
# Certificates for equidistribution

The kernel computes a sequence of outputs, and by elimination a basis of the windows of `k` consecutive outputs cut to `v` bits.  If its
leading bits are all positions then the outputs are `k`-dimensionally equidistributed with `v`-bit accuracy.
-/

namespace MTT.GF2

open PIS

/-- The windows: `x_0/2^d + 2^v x_1/2^d + …`. -/
def winN (d v : ℕ) : ℕ → List ℕ → ℕ
  | 0, _ => 0
  | _ + 1, [] => 0
  | k + 1, x :: xs => x / 2 ^ d + 2 ^ v * winN d v k xs

/-- Reduction by the vectors of a list. -/
def redL (bs : List ℕ) : ℕ → ℕ :=
  List.rec (fun x => x) (fun b _ ih x => force (Nat.xor x b) fun y => Bool.rec (ih x) (ih y) (Nat.ble y x)) bs

/-- Insertion into a list in decreasing order. -/
def insK {α : Type} (x : ℕ) : List ℕ → (List ℕ → α) → α
  | [], K => K [x]
  | b :: bs, K => Bool.rec (K (x :: b :: bs)) (insK x bs fun bs => K (b :: bs)) (Nat.ble x b)

/-- Elimination for the first windows of the list `ws`. -/
def elim (d v k : ℕ) : ℕ → List ℕ → List ℕ → (List ℕ → Bool) → Bool
  | 0, _, bs, K => K bs
  | j + 1, ws, bs, K => force (redL bs (winN d v k ws)) fun x =>
      Bool.rec (insK x bs fun bs => elim d v k j ws.tail bs K) (elim d v k j ws.tail bs K) (Nat.beq x 0)

/-- Do the leading bits of the list go from `n-1` to 0? -/
def stairs : List ℕ → ℕ → Bool
  | _, 0 => true
  | [], _ + 1 => false
  | b :: bs, n + 1 => Bool.rec false (stairs bs n) (Nat.beq (Nat.log2 b) n && Nat.ble 1 b)

/-- The test for all pairs `(v, k)` of a list; `w` is the length of the words. -/
def pairsOK (w m : ℕ) (ws : List ℕ) : List (ℕ × ℕ) → Bool
  | [] => true
  | p :: ps => Bool.rec false (pairsOK w m ws ps) (Nat.ble p.1 w && (Nat.ble (m + p.2) ws.length && elim (w - p.1) p.1 p.2 m ws [] fun bs => stairs bs (p.1 * p.2)))

variable {S : Type}

/-- A list of `m` outputs `g s`, `g (f s)`, …. -/
def seqL (f : S → S) (g : S → ℕ) : ℕ → S → List ℕ
  | 0, _ => []
  | m + 1, s => g s :: seqL f g m (f s)

/-- The same with evaluation. -/
def seqK (fc : S → (S → Bool) → Bool) (f : S → S) (g : S → ℕ) : ℕ → S → (List ℕ → Bool) → Bool
  | 0, _, K => K []
  | m + 1, s, K => force (g s) fun x => fc (f s) fun s => seqK fc f g m s fun xs => K (x :: xs)

theorem seqK_eq {fc : S → (S → Bool) → Bool} (hfc : ∀ s k, fc s k = k s) (f : S → S) (g : S → ℕ) (m : ℕ) :
    ∀ s K, seqK fc f g m s K = K (seqL f g m s) := by
  induction m with
  | zero => intro s K; rfl
  | succ m ih => intro s K; rw [seqK, force_eq, hfc, ih, seqL]

theorem seqL_length (f : S → S) (g : S → ℕ) (m : ℕ) : ∀ s, (seqL f g m s).length = m := by
  induction m with
  | zero => intro s; rfl
  | succ m ih => intro s; rw [seqL, List.length_cons, ih]

variable [AddCommGroup S] [Module (ZMod 2) S] {T : S →ₗ[ZMod 2] S} {O : S →ₗ[ZMod 2] V} {g : S → ℕ} {w v k : ℕ}

/-- `N` holds the first `v` bits of the first `k` outputs of `s`. -/
def WinRep (T : S →ₗ[ZMod 2] S) (O : S →ₗ[ZMod 2] V) (v k : ℕ) (s : S) (N : ℕ) : Prop :=
  ∀ t < k, ∀ i < v, O ((T ^ t) s) i = if N.testBit (v * t + (v - 1 - i)) then 1 else 0

/-- The number holds the outputs of a state in `W`. -/
def Occ (T : S →ₗ[ZMod 2] S) (O : S →ₗ[ZMod 2] V) (W : Submodule (ZMod 2) S) (v k : ℕ) (N : ℕ) : Prop := ∃ s ∈ W, WinRep T O v k s N

variable {W : Submodule (ZMod 2) S}

theorem Occ.xor {M N : ℕ} (hM : Occ T O W v k M) (hN : Occ T O W v k N) : Occ T O W v k (M ^^^ N) := by
  obtain ⟨s, hs, h1⟩ := hM
  obtain ⟨u, hu, h2⟩ := hN
  refine ⟨s + u, W.add_mem hs hu, fun t ht i hi => ?_⟩
  rw [map_add, map_add, Pi.add_apply, h1 t ht i hi, h2 t ht i hi, Nat.testBit_xor]
  cases M.testBit (v * t + (v - 1 - i)) <;> cases N.testBit (v * t + (v - 1 - i)) <;> decide

theorem Occ.zero : Occ T O W v k 0 := ⟨0, W.zero_mem, fun t _ i _ => by simp⟩

theorem redL_occ (bs : List ℕ) : ∀ x, (∀ b ∈ bs, Occ T O W v k b) → (Occ T O W v k (redL bs x) ↔ Occ T O W v k x) := by
  induction bs with
  | nil => intro x _; rfl
  | cons b bs ih =>
    intro x h
    have ih := fun x => ih x (fun b' hb' => h b' (List.mem_cons_of_mem _ hb'))
    show Occ T O W v k (force (x ^^^ b) fun y => Bool.rec (redL bs x) (redL bs y) (Nat.ble y x)) ↔ _
    rw [force_eq]
    cases Nat.ble (x ^^^ b) x with
    | false => exact ih x
    | true =>
      refine (ih (x ^^^ b)).trans ?_
      constructor
      · intro h1
        have := h1.xor (h b List.mem_cons_self)
        rwa [Nat.xor_assoc, Nat.xor_self, Nat.xor_zero] at this
      · intro h1
        exact h1.xor (h b List.mem_cons_self)

theorem insK_occ {x : ℕ} (hx : Occ T O W v k x) (bs : List ℕ) : ∀ K : List ℕ → Bool, (∀ b ∈ bs, Occ T O W v k b) → insK x bs K = true →
    ∃ bs', (∀ b ∈ bs', Occ T O W v k b) ∧ K bs' = true := by
  induction bs with
  | nil =>
    intro K _ h
    exact ⟨[x], fun b hb => by rw [List.mem_singleton.1 hb]; exact hx, h⟩
  | cons b bs ih =>
    intro K hb h
    rw [insK] at h
    cases hc : Nat.ble x b with
    | false =>
      rw [hc] at h
      exact ⟨x :: b :: bs, fun b' h' => by
        rcases List.mem_cons.1 h' with rfl | h'
        · exact hx
        · exact hb b' h', h⟩
    | true =>
      rw [hc] at h
      obtain ⟨bs', h1, h2⟩ := ih _ (fun b' h' => hb b' (List.mem_cons_of_mem _ h')) h
      exact ⟨b :: bs', fun b' h' => by
        rcases List.mem_cons.1 h' with rfl | h'
        · exact hb _ List.mem_cons_self
        · exact h1 b' h', h2⟩

/-- The words of the outputs. -/
def IsWord (O : S →ₗ[ZMod 2] V) (g : S → ℕ) (w : ℕ) : Prop :=
  ∀ s, g s < 2 ^ w ∧ ∀ i < w, O s i = if (g s).testBit (w - 1 - i) then 1 else 0

theorem winN_rep (hg : IsWord O g w) (hv : v ≤ w) (k : ℕ) : ∀ m s, k ≤ m → WinRep T O v k s (winN (w - v) v k (seqL T g m s)) := by
  induction k with
  | zero => intro m s _ t ht; exact absurd ht (by omega)
  | succ k ih =>
    intro m s hm t ht i hi
    obtain ⟨m, rfl⟩ : ∃ m', m = m' + 1 := ⟨m - 1, by omega⟩
    rw [seqL, winN]
    obtain ⟨h1, h2⟩ := hg s
    have hlt : g s / 2 ^ (w - v) < 2 ^ v := by
      rw [Nat.div_lt_iff_lt_mul (by positivity), ← pow_add, show v + (w - v) = w by omega]; exact h1
    rw [Nat.add_comm, Nat.testBit_two_pow_mul_add _ hlt]
    cases t with
    | zero =>
      rw [Nat.mul_zero, Nat.zero_add, if_pos (show v - 1 - i < v by omega), pow_zero, Module.End.one_apply, h2 i (by omega), Nat.testBit_div_two_pow]
      rw [show v - 1 - i + (w - v) = w - 1 - i by omega]
    | succ t =>
      have e : v * (t + 1) + (v - 1 - i) = v * t + (v - 1 - i) + v := by rw [Nat.mul_succ]; omega
      have := ih m (T s) (by omega) t (by omega) i hi
      rw [e, if_neg (show ¬ v * t + (v - 1 - i) + v < v by omega), Nat.add_sub_cancel, pow_succ, Module.End.mul_apply, this]

theorem elim_occ (hg : IsWord O g w) (hv : v ≤ w) (hW : ∀ s ∈ W, T s ∈ W) (j : ℕ) : ∀ m s (bs : List ℕ) (K : List ℕ → Bool), s ∈ W → j + k ≤ m →
    (∀ b ∈ bs, Occ T O W v k b) → elim (w - v) v k j (seqL T g m s) bs K = true → ∃ bs', (∀ b ∈ bs', Occ T O W v k b) ∧ K bs' = true := by
  induction j with
  | zero => intro m s bs K _ _ hb h; exact ⟨bs, hb, h⟩
  | succ j ih =>
    intro m s bs K hs hm hb h
    rw [elim, force_eq] at h
    have h1 : Occ T O W v k (redL bs (winN (w - v) v k (seqL T g m s))) := (redL_occ bs _ hb).2 ⟨s, hs, winN_rep hg hv k m s (by omega)⟩
    obtain ⟨m, rfl⟩ : ∃ m', m = m' + 1 := ⟨m - 1, by omega⟩
    have ht : (seqL T g (m + 1) s).tail = seqL T g m (T s) := rfl
    rw [ht] at h
    cases hc : Nat.beq (redL bs (winN (w - v) v k (seqL T g (m + 1) s))) 0 with
    | true =>
      rw [hc] at h
      exact ih m (T s) bs K (hW s hs) (by omega) hb h
    | false =>
      rw [hc] at h
      obtain ⟨bs', h2, h3⟩ := insK_occ h1 bs _ hb h
      exact ih m (T s) bs' K (hW s hs) (by omega) h2 h3

theorem stairs_occ (n : ℕ) : ∀ bs : List ℕ, (∀ b ∈ bs, Occ T O W v k b) → stairs bs n = true → ∀ N, N < 2 ^ n → Occ T O W v k N := by
  induction n with
  | zero =>
    intro bs _ _ N hN
    rw [pow_zero, Nat.lt_one_iff] at hN
    rw [hN]; exact Occ.zero
  | succ n ih =>
    intro bs hb h N hN
    cases bs with
    | nil => exact absurd h Bool.false_ne_true
    | cons b bs =>
      rw [stairs] at h
      cases hc : (Nat.beq (Nat.log2 b) n && Nat.ble 1 b) with
      | false => rw [hc] at h; exact absurd h Bool.false_ne_true
      | true =>
        rw [hc] at h
        rw [Bool.and_eq_true] at hc
        have c1 : Nat.log2 b = n := Nat.eq_of_beq_eq_true hc.1
        have c2 := Nat.le_of_ble_eq_true hc.2
        have ih := ih bs (fun b' h' => hb b' (List.mem_cons_of_mem _ h')) h
        have hbn : b.testBit n = true := by
          rw [← c1]; exact Nat.testBit_log2 (by omega)
        have hblt : b < 2 ^ (n + 1) := by
          have := Nat.lt_log2_self (n := b)
          rwa [c1] at this
        by_cases hNn : N.testBit n = true
        · have h1 : N ^^^ b < 2 ^ n := by
            apply Nat.lt_pow_two_of_testBit
            intro i hi
            rw [Nat.testBit_xor]
            rcases Nat.lt_or_ge n i with h2 | h2
            · have e : ∀ M, M < 2 ^ (n + 1) → M.testBit i = false := fun M hM =>
                Nat.testBit_lt_two_pow (lt_of_lt_of_le hM (Nat.pow_le_pow_right (by decide) h2))
              rw [e N hN, e b hblt]; rfl
            · have : i = n := by omega
              rw [this, hNn, hbn]; rfl
          have := (ih _ h1).xor (hb b List.mem_cons_self)
          rwa [Nat.xor_assoc, Nat.xor_self, Nat.xor_zero] at this
        · apply ih
          apply Nat.lt_pow_two_of_testBit
          intro i hi
          rcases Nat.lt_or_ge n i with h2 | h2
          · exact Nat.testBit_lt_two_pow (lt_of_lt_of_le hN (Nat.pow_le_pow_right (by decide) h2))
          · have : i = n := by omega
            rw [this]; simpa using hNn

/-- The number with given bits. -/
theorem exists_bits (n : ℕ) (f : ℕ → Bool) : ∃ N, N < 2 ^ n ∧ ∀ i < n, N.testBit i = f i := by
  induction n with
  | zero => exact ⟨0, by decide, fun i hi => absurd hi (by omega)⟩
  | succ n ih =>
    obtain ⟨N, h1, h2⟩ := ih
    refine ⟨2 ^ n * (if f n then 1 else 0) + N, ?_, fun i hi => ?_⟩
    · rw [pow_succ]; split <;> omega
    · rw [Nat.testBit_two_pow_mul_add _ h1]
      by_cases hin : i < n
      · rw [if_pos hin, h2 i hin]
      · have : i = n := by omega
        subst this
        rw [if_neg hin, Nat.sub_self]
        cases f i <;> simp

theorem equidist_of_occ (h : ∀ N, N < 2 ^ (v * k) → Occ T O W v k N) : Equidist T O W v k := by
  intro a
  classical
  obtain ⟨N, h1, h2⟩ := exists_bits (v * k) (fun p => decide (a (p / v) (v - 1 - p % v) = 1))
  obtain ⟨s, hs, h3⟩ := h N h1
  refine ⟨s, hs, fun t ht i hi => ?_⟩
  have hlt : v * t + (v - 1 - i) < v * k := by
    have : v * (t + 1) ≤ v * k := Nat.mul_le_mul_left _ ht
    rw [Nat.mul_succ] at this
    omega
  rw [h3 t ht i hi, h2 _ hlt]
  have e1 : (v * t + (v - 1 - i)) / v = t := by
    rw [Nat.mul_add_div (by omega), Nat.div_eq_of_lt (by omega), Nat.add_zero]
  have e2 : v - 1 - (v * t + (v - 1 - i)) % v = i := by
    rw [Nat.mul_add_mod, Nat.mod_eq_of_lt (by omega)]; omega
  rw [e1, e2]
  generalize a t i = z
  revert z
  decide

/-- **The certificate.** -/
theorem equidist_of_check {fc : S → (S → Bool) → Bool} (hfc : ∀ s k, fc s k = k s) {f : S → S} (hf : ∀ s, T s = f s) (hg : IsWord O g w)
    {m L : ℕ} {s0 : S} {ps : List (ℕ × ℕ)} (h : seqK fc f g L s0 (fun ws => pairsOK w m ws ps) = true) :
    ∀ p ∈ ps, Equidist T O (cyc T s0) p.1 p.2 := by
  rw [seqK_eq hfc, show f = T from funext fun s => (hf s).symm] at h
  induction ps with
  | nil => intro p hp; exact absurd hp List.not_mem_nil
  | cons q ps ih =>
    rw [pairsOK] at h
    cases hc : (Nat.ble q.1 w && (Nat.ble (m + q.2) (seqL T g L s0).length && elim (w - q.1) q.1 q.2 m (seqL T g L s0) [] fun bs => stairs bs (q.1 * q.2))) with
    | false => rw [hc] at h; exact absurd h Bool.false_ne_true
    | true =>
      rw [hc] at h
      intro p hp
      rcases List.mem_cons.1 hp with rfl | hp
      · rw [Bool.and_eq_true, Bool.and_eq_true] at hc
        obtain ⟨c1, c2, c3⟩ := hc
        have c1 := Nat.le_of_ble_eq_true c1
        have c2 := Nat.le_of_ble_eq_true c2
        rw [seqL_length] at c2
        obtain ⟨bs, h1, h2⟩ := elim_occ (W := cyc T s0) hg c1 (fun s hs => cyc_T T hs) m L s0 [] _
          (Submodule.subset_span ⟨0, by simp⟩) c2 (fun b hb => absurd hb List.not_mem_nil) c3
        exact equidist_of_occ (stairs_occ _ bs h1 h2)
      · exact ih h p hp

end MTT.GF2
