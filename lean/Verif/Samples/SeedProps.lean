import Verif.Samples.SeedLoop
import Verif.Samples.MT2Example
import Verif.Samples.MTGPDCProps
import Verif.Samples.RMTDCGood
import Verif.Samples.SFMTDCProps
import Verif.Samples.DSFMTDCProps
import Verif.Samples.TinyMTDCProps
import Verif.Samples.XorShiftSearch

/-!
# C113: the method `seed` of the sample classes
-/

namespace MTT.Seeding

/-- The words that the classes of mt2.cpp and MTGP32search.hpp begin with. -/
abbrev sw (v : BitVec 32) : ℕ → BitVec 32 := val 1812433253 30 (fun _ => 0) v

theorem sw_succ (v : BitVec 32) (j : ℕ) : sw v (j + 1) = (1812433253 : BitVec 32) * (sw v j ^^^ (sw v j >>> 30)) + BitVec.ofNat 32 (j + 1) := by
  show 0#32 ^^^ (BitVec.ofNat 32 (j + 1) + _) = _
  rw [BitVec.zero_xor]
  exact BitVec.add_comm _ _

theorem fill_sw (v : BitVec 32) (k : ℕ) (m : ℕ → BitVec 32) {j : ℕ} (hj : j < 1 + k) :
    fill (fun (i : ℕ) (p : BitVec 32) => (1812433253 : BitVec 32) * (p ^^^ (p >>> 30)) + BitVec.ofNat 32 i) k 1 (Function.update m 0 v) j =
      sw v j := by
  refine fill_spec _ (sw v) (fun j => sw_succ v j) _ 1 _ le_rfl (fun j hj => ?_) j hj
  obtain rfl : j = 0 := by omega
  exact Function.update_self ..

theorem sw_inj {v v' : BitVec 32} (h : sw v 1 = sw v' 1) : v = v' :=
  val_back (i := 0x9638806d) (a := 0) (by omega) (by decide) 1 (fun _ _ _ => rfl) h

theorem sw_zero {v : BitVec 32} (h1 : sw v 1 = 0) : sw v 2 ≠ 0 := fun h2 =>
  ofNat_ne_zero (by omega) (by omega) ((val_after_zero rfl h1).symm.trans h2)

end MTT.Seeding

namespace MTT.MTDC

open PIS Search Seeding

variable {n r : ℕ}

theorem seedLoop_fill : ∀ (k i : ℕ) (m : ℕ → BitVec 32),
    seedLoop k i m = fill (fun (i : ℕ) (p : BitVec 32) => (1812433253 : BitVec 32) * (p ^^^ (p >>> 30)) + BitVec.ofNat 32 i) k i m
  | 0, _, _ => rfl
  | k + 1, i, m => by
    rw [seedLoop, fill]
    exact seedLoop_fill k _ _

theorem seed_word {s : St} (hs : Inv n r s) (v : BitVec 32) {j : ℕ} (hj : j < n) : words n (seed v s) j = sw v j := by
  have hz := hs.size
  show seedLoop (s.size - 1) 1 _ ((s.size - 1 + (j + 1)) % n) = _
  rw [show s.size - 1 + (j + 1) = n + j by omega, Nat.add_mod_left, Nat.mod_eq_of_lt hj, seedLoop_fill]
  exact fill_sw v _ _ (by omega)

theorem seed_den {s : St} (hs : Inv n r s) (v : BitVec 32) :
    den n r (seed v s) = (Wd.of (MTRec.hi r (sw v 0)), fun j : Fin (n - 1) => Wd.of (sw v (1 + j))) := by
  have hn : 0 < n := by have := hs.posn; omega
  unfold den
  rw [seed_word hs v hn]
  refine Prod.ext rfl (funext fun j => ?_)
  show Wd.of (words n (seed v s) (1 + j)) = _
  rw [seed_word hs v (by have := j.2; omega)]

/-- **C113, the class of mt2.cpp.**  `seed` is a clean restart: two objects with the same parameters return the same values afterwards.  With
three words or more (all exponents of the program) no seed gives the zero state.  Different seeds give different states, and if the
parameters are of maximal period and the output is not always zero, the returned values differ infinitely often. -/
theorem seed_restarts {s t : St} (hs : Inv n r s) (ht : Inv n r t) (hp : par s = par t) (hrev : s.rev = false) (mexp : ℕ) :
    (∀ v k, outAt (ops mexp) (seed v s) k = outAt (ops mexp) (seed v t) k) ∧ (3 ≤ n → ∀ v, den n r (seed v s) ≠ 0) ∧
    ∀ v v', v ≠ v' → den n r (seed v s) ≠ den n r (seed v' s) ∧
      ((∀ u, Inv n r u → par u = par s → den n r u ≠ 0 → ∀ k, den n r (stateAt (ops mexp) u k) = den n r u ↔ 2 ^ s.mexp - 1 ∣ k) →
        (∃ u, Inv n r u ∧ par u = par s ∧ (generate u).2 ≠ 0) → ∀ K, ∃ k, K ≤ k ∧ outAt (ops mexp) (seed v s) k ≠ outAt (ops mexp) (seed v' s) k) := by
  have hn : 1 < n := by have := hs.pos1; have := hs.posn; omega
  have L := linGen (n := n) (r := r) mexp (par s) hrev
  refine ⟨fun v k => outAt_congr L (seed_inv hs v) ⟨(seed_inv ht v).1, (seed_inv ht v).2.trans hp.symm⟩ ?_ k, fun h3 v h => ?_, fun v v' hv => ?_⟩
  · rw [seed_den hs, seed_den ht]
  · rw [seed_den hs] at h
    have h1 : sw v 1 = 0 := congrArg (fun q : S n r => (q.2 ⟨0, by omega⟩).val) h
    have h2 : sw v 2 = 0 := congrArg (fun q : S n r => (q.2 ⟨1, by omega⟩).val) h
    exact sw_zero h1 h2
  · have hd : den n r (seed v s) ≠ den n r (seed v' s) := by
      rw [seed_den hs, seed_den hs]
      intro h
      have h1 : sw v 1 = sw v' 1 := congrArg (fun q : S n r => (q.2 ⟨0, by omega⟩).val) h
      exact hv (sw_inj h1)
    refine ⟨hd, fun hmax hO => ?_⟩
    have hmx : 1 ≤ s.mexp := by have := hs.mexp; have := hs.rlt; omega
    refine outAt_differ L hmx ?_ (fun u hu => hmax u hu.1 hu.2) (hO.imp fun u hu => ⟨⟨hu.1, hu.2.1⟩, hu.2.2⟩) (seed_inv hs v) (seed_inv hs v') hd
    have h := MTRec.finrank_state (⟨n, 1, r, 0⟩ : MTPar 32)
    have h' : Module.finrank (ZMod 2) (S n r) = (32 - r) + (n - 1) * 32 := h
    have := hs.mexp
    have := hs.rlt
    omega

end MTT.MTDC

namespace MTT.MTGP

open PIS Search Seeding

variable {n r : ℕ}

theorem seedLoop_fill : ∀ (k i : ℕ) (m : ℕ → BitVec 32),
    seedLoop k i m = fill (fun (i : ℕ) (p : BitVec 32) => (1812433253 : BitVec 32) * (p ^^^ (p >>> 30)) + BitVec.ofNat 32 i) k i m
  | 0, _, _ => rfl
  | k + 1, i, m => by
    rw [seedLoop, fill]
    exact seedLoop_fill k _ _

theorem seed_vec {s : St} (hs : Inv n r s) (v : BitVec 32) :
    Ring.vec n (seed v s).state (seed v s).idx = fun j : Fin n => Wd.of (sw v j) := by
  funext j
  have hz := hs.size
  have hj := j.2
  show Wd.of (seedLoop (s.size - 1) 1 _ ((s.size - 1 + (j + 1)) % n)) = _
  rw [show s.size - 1 + ((j : ℕ) + 1) = n + j by omega, Nat.add_mod_left, Nat.mod_eq_of_lt hj, seedLoop_fill, fill_sw v _ _ (by omega)]

theorem seed_den_word {s : St} (hs : Inv n r s) (v : BitVec 32) (j : Fin (n - 1)) : ((den n r (seed v s)).2 j).val = sw v (j + 1) := by
  unfold den
  rw [seed_vec hs]
  rfl

/-- **C113, the class of MTGP32search.hpp.**  As for mt2.cpp; the exponents that are accepted have three words or more. -/
theorem seed_restarts {s t : St} (hs : Inv n r s) (ht : Inv n r t) (hp : par s = par t) (hrev : s.rev = false) (mexp : ℕ) :
    (∀ v k, outAt (ops mexp) (seed v s) k = outAt (ops mexp) (seed v t) k) ∧ (∀ v, den n r (seed v s) ≠ 0) ∧
    ∀ v v', v ≠ v' → den n r (seed v s) ≠ den n r (seed v' s) ∧
      ((∀ u, Inv n r u → par u = par s → den n r u ≠ 0 → ∀ k, den n r (stateAt (ops mexp) u k) = den n r u ↔ 2 ^ s.mexp - 1 ∣ k) →
        (∃ u, Inv n r u ∧ par u = par s ∧ (generate u).2 ≠ 0) → ∀ K, ∃ k, K ≤ k ∧ outAt (ops mexp) (seed v s) k ≠ outAt (ops mexp) (seed v' s) k) := by
  have hn : 2 < n := by have := hs.pos2; have := hs.posn; omega
  have L := linGen (n := n) (r := r) mexp (par s) hrev
  refine ⟨fun v k => outAt_congr L (seed_inv hs v) ⟨(seed_inv ht v).1, (seed_inv ht v).2.trans hp.symm⟩ ?_ k, fun v h => ?_, fun v v' hv => ?_⟩
  · unfold den
    rw [seed_vec hs, seed_vec ht]
  · have h1 := seed_den_word hs v ⟨0, by omega⟩
    have h2 := seed_den_word hs v ⟨1, by omega⟩
    rw [h] at h1 h2
    exact sw_zero h1.symm h2.symm
  · have hd : den n r (seed v s) ≠ den n r (seed v' s) := by
      intro h
      have h1 := seed_den_word hs v ⟨0, by omega⟩
      rw [h, seed_den_word hs v'] at h1
      exact hv (sw_inj h1.symm)
    refine ⟨hd, fun hmax hO => ?_⟩
    have hmx : 1 ≤ s.mexp := by have := hs.mexp; have := hs.rlt; omega
    refine outAt_differ L hmx ?_ (fun u hu => hmax u hu.1 hu.2) (hO.imp fun u hu => ⟨⟨hu.1, hu.2.1⟩, hu.2.2⟩) (seed_inv hs v) (seed_inv hs v') hd
    have h := RingHi.finrank (w := 32) (n := n) (r := r) (by omega) (by have := hs.rlt; omega)
    have := hs.mexp
    omega

end MTT.MTGP

namespace MTT.RMT

open PIS Search Seeding

variable {n : ℕ}

/-- The words after `seed`. -/
abbrev sw (v : BitVec 64) : ℕ → BitVec 64 := val 6364136223846793005 62 (fun _ => 0) v

theorem sw_succ (v : BitVec 64) (j : ℕ) :
    sw v (j + 1) = BitVec.ofNat 64 (j + 1) + (6364136223846793005 : BitVec 64) * (sw v j ^^^ (sw v j >>> 62)) := by
  show 0#64 ^^^ (BitVec.ofNat 64 (j + 1) + _) = _
  rw [BitVec.zero_xor]

theorem seedLoop_fill : ∀ (k i : ℕ) (m : ℕ → BitVec 64),
    seedLoop k i m = fill (fun (i : ℕ) (p : BitVec 64) => BitVec.ofNat 64 i + (6364136223846793005 : BitVec 64) * (p ^^^ (p >>> 62))) k i m
  | 0, _, _ => rfl
  | k + 1, i, m => by
    rw [seedLoop, fill]
    exact seedLoop_fill k _ _

theorem seed_inv {s : St} (hs : Inv n s) (v : BitVec 64) : Inv n (seed v s) ∧ par (seed v s) = par s :=
  ⟨⟨hs.size, by show s.size - 1 < n; have := hs.size; have := hs.pos; omega, hs.pos⟩, rfl⟩

theorem seed_den {s : St} (hs : Inv n s) (v : BitVec 64) : den n (seed v s) = fun j : Fin n => Wd.of (sw v j) := by
  funext j
  have hz := hs.size
  have hj := j.2
  show Wd.of (seedLoop (s.size - 1) 1 _ ((s.size - 1 + (j + 1)) % n)) = _
  rw [show s.size - 1 + ((j : ℕ) + 1) = n + j by omega, Nat.add_mod_left, Nat.mod_eq_of_lt hj, seedLoop_fill,
    fill_spec _ (sw v) (fun j => sw_succ v j) _ 1 _ le_rfl (fun j hj => ?_) j (by omega)]
  obtain rfl : j = 0 := by omega
  exact Function.update_self ..

/-- **C113, the class of rmt64.hpp.**  `seed` is a clean restart, with two words or more (all exponents from 64 on) no seed gives the zero state,
and different seeds give different states. -/
theorem seed_restarts {s t : St} (hs : Inv n s) (ht : Inv n t) (hp : par s = par t) (hrev : s.rev = false) :
    (∀ v k, outAt (ops n) (seed v s) k = outAt (ops n) (seed v t) k) ∧ (2 ≤ n → ∀ v, den n (seed v s) ≠ 0) ∧
    ∀ v v', v ≠ v' → den n (seed v s) ≠ den n (seed v' s) := by
  have hn : 0 < n := by have := hs.pos; omega
  have L := linGen (n := n) (par s) hrev
  refine ⟨fun v k => outAt_congr L (seed_inv hs v) ⟨(seed_inv ht v).1, (seed_inv ht v).2.trans hp.symm⟩ ?_ k, fun h2 v h => ?_, fun v v' hv h => hv ?_⟩
  · rw [seed_den hs, seed_den ht]
  · rw [seed_den hs] at h
    have h0 : sw v 0 = 0 := congrArg (fun q : S n => (q ⟨0, by omega⟩).val) h
    have h1 : sw v 1 = 0 := congrArg (fun q : S n => (q ⟨1, by omega⟩).val) h
    exact ofNat_ne_zero (by omega) (by omega) ((val_after_zero rfl h0).symm.trans h1)
  · rw [seed_den hs, seed_den hs] at h
    exact congrArg (fun q : S n => (q ⟨0, hn⟩).val) h

end MTT.RMT

namespace MTT.SFMT

open PIS Search Seeding W128

variable {n : ℕ}

/-- What the array holds before the loop of `seed`, as 32-bit words. -/
def start (v : W128) (j : ℕ) : BitVec 32 := if j < 4 then u v j else 0

/-- The 32-bit words after `seed`. -/
abbrev sw (v : W128) : ℕ → BitVec 32 := val 1812433253 30 (start v) (u v 0)

theorem u_zero (j : ℕ) : u (0 : W128) j = 0 := by
  apply BitVec.eq_of_getLsbD_eq
  intro i _
  rw [u_bit]
  simp

theorem seedLoop_word (v : W128) : ∀ (k i : ℕ) (m : ℕ → W128), 1 ≤ i → (∀ j, j < i → u (m (j / 4)) (j % 4) = sw v j) →
    (∀ j, i ≤ j → j < i + k → u (m (j / 4)) (j % 4) = start v j) → ∀ j, j < i + k → u (seedLoop k i m (j / 4)) (j % 4) = sw v j
  | 0, i, m, _, h, _, j, hj => h j hj
  | k + 1, i, m, hi, h, h', j, hj => by
    rw [seedLoop]
    refine seedLoop_word v k (i + 1) _ (by omega) (fun j hj => ?_) (fun j h1 h2 => ?_) j (by omega)
    · by_cases e : j = i
      · subst e
        rw [Function.update_self, u_setU (by omega), if_pos rfl, h' j le_rfl (by omega), h (j - 1) (by omega)]
        obtain ⟨a, rfl⟩ : ∃ a, j = a + 1 := ⟨j - 1, by omega⟩
        rfl
      · rw [← h j (by omega)]
        by_cases e2 : j / 4 = i / 4
        · rw [e2, Function.update_self, u_setU (by omega), if_neg (by omega)]
        · rw [Function.update_of_ne e2]
    · rw [← h' j (by omega) (by omega)]
      by_cases e2 : j / 4 = i / 4
      · rw [e2, Function.update_self, u_setU (by omega), if_neg (by omega)]
      · rw [Function.update_of_ne e2]

theorem seed_word {s : St} (hs : Inv n s) (v : W128) {j : ℕ} (hj : j < n * 4) : u ((seed v s).state (j / 4)) (j % 4) = sw v j := by
  have h3 := hs.three
  show u (seedLoop (s.size * 4 - 1) 1 (Function.update (setZero s).state 0 v) (j / 4)) (j % 4) = _
  have hz : ∀ k, k < n → (setZero s).state k = 0 := by
    intro k hk
    show (List.range s.size).foldl (fun a i => Function.update a i (mk64 0 0)) s.state k = 0
    rw [hs.size, mk64_zero]
    exact Ring.clear n s.state hk
  rw [hs.size]
  refine seedLoop_word v _ 1 _ le_rfl (fun j hj => ?_) (fun j h1 h2 => ?_) j (by omega)
  · obtain rfl : j = 0 := by omega
    rfl
  · unfold start
    by_cases e : j < 4
    · rw [if_pos e, show j / 4 = 0 by omega, Function.update_self, Nat.mod_eq_of_lt e]
    · rw [if_neg e, Function.update_of_ne (by omega), hz _ (by omega), u_zero]

theorem word_eq {x y : W128} (h : ∀ j, j < 4 → u x j = u y j) : x = y := by
  apply BitVec.eq_of_getLsbD_eq
  intro i hi
  have := congrArg (fun b : BitVec 32 => b.getLsbD (i % 32)) (h (i / 32) (by omega))
  simp only [u_bit, Nat.mod_lt i (show 0 < 32 by omega), decide_true, Bool.true_and, Nat.div_add_mod] at this
  exact this

theorem seed_den_state {s t : St} (hs : Inv n s) (v v' : W128) (h : den n (seed v s) = den n (seed v' t)) (k : ℕ) (hk : k < n) :
    (seed v s).state k = (seed v' t).state k := by
  have h3 := hs.three
  have := congrArg (fun q : S n => (q.1 ⟨(k + n - 1) % n, Nat.mod_lt _ (by omega)⟩).val) h
  have e : (0 + ((k + n - 1) % n + 1)) % n = k := by
    by_cases h0 : k = 0
    · subst h0
      rw [show (0 + n - 1) % n = n - 1 from (by rw [Nat.mod_eq_of_lt] <;> omega), show 0 + (n - 1 + 1) = n by omega, Nat.mod_self]
    · rw [show k + n - 1 = n + (k - 1) by omega, Nat.add_mod_left, Nat.mod_eq_of_lt (show k - 1 < n by omega), Nat.mod_eq_of_lt (by omega)]
      omega
  have h' : (seed v s).state ((0 + ((k + n - 1) % n + 1)) % n) = (seed v' t).state ((0 + ((k + n - 1) % n + 1)) % n) := this
  rwa [e] at h'

/-- **C113, the class of sfmtsearch.hpp.**  `seed` is a clean restart, no seed gives the zero state, and all 128 bits of the seed count: different
seeds give different states and, with whole words as output, different streams. -/
theorem seed_restarts {s t : St} (hs : Inv n s) (ht : Inv n t) (hp : cfg s = cfg t) (hrev : s.rev = false) :
    (∀ v k, outAt (ops n) (seed v s) k = outAt (ops n) (seed v t) k) ∧ (∀ v, den n (seed v s) ≠ 0) ∧
    ∀ v v', v ≠ v' → den n (seed v s) ≠ den n (seed v' s) ∧
      (s.weightMode = 4 → ∃ k, outAt (ops n) (seed v s) k ≠ outAt (ops n) (seed v' s) k) := by
  have h3 := hs.three
  have L := linGen (n := n) (cfg s) hrev
  refine ⟨fun v k => outAt_congr L (seed_inv hs v) ⟨(seed_inv ht v).1, (seed_inv ht v).2.trans hp.symm⟩
    (seed_den_eq hs ht (congrArg Cfg.weight hp) v) k, fun v h => ?_, fun v v' hv => ?_⟩
  · have hz : ∀ k, (ha : k + 1 < n) → (seed v s).state (k + 1) = 0 := fun k ha => by
      have e := congrArg (fun q : S n => (q.1 ⟨k, by omega⟩).val) h
      have e' : (seed v s).state ((0 + (k + 1)) % n) = 0 := e
      rwa [Nat.zero_add, Nat.mod_eq_of_lt ha] at e'
    have w4 : sw v 4 = 0 := by
      rw [← seed_word hs v (show 4 < n * 4 by omega)]
      show u ((seed v s).state (0 + 1)) 0 = 0
      rw [hz 0 (by omega), u_zero]
    have w5 : sw v 5 = 0 := by
      rw [← seed_word hs v (show 5 < n * 4 by omega)]
      show u ((seed v s).state (0 + 1)) 1 = 0
      rw [hz 0 (by omega), u_zero]
    exact ofNat_ne_zero (by omega) (by omega) ((val_after_zero (if_neg (by omega)) w4).symm.trans w5)
  · suffices hd : den n (seed v s) ≠ den n (seed v' s) from ⟨hd, fun h4 => outAt_obs L
      (obs (n := n) (c := cfg s) h4 h3 hs.pos_pos hs.pos hs.ok) (seed_inv hs v) (seed_inv hs v') (den_full h4) (den_full h4) hd⟩
    intro h
    apply hv
    have h0 : ∀ j, j < 4 → sw v j = sw v' j := fun j hj => by
      rw [← seed_word hs v (by omega), ← seed_word hs v' (by omega), seed_den_state hs v v' h _ (by omega)]
    apply word_eq
    intro j hj
    rcases j with _ | j
    · exact h0 0 (by omega)
    · have e := h0 (j + 1) hj
      have e' : start v (j + 1) ^^^ (BitVec.ofNat 32 (j + 1) + 1812433253 * (sw v j ^^^ (sw v j >>> 30))) =
        start v' (j + 1) ^^^ (BitVec.ofNat 32 (j + 1) + 1812433253 * (sw v' j ^^^ (sw v' j >>> 30))) := e
      rw [h0 j (by omega), BitVec.xor_left_inj] at e'
      unfold start at e'
      rwa [if_pos hj, if_pos hj] at e'

end MTT.SFMT

namespace MTT.DSFMT

open PIS Search Seeding W128

variable {n : ℕ}

/-- What the array holds before the loop of `seed`. -/
def start0 (v : W128) (j : ℕ) : BitVec 64 := if j = 1 then u64 v 1 else 0

/-- The 64-bit words that the loop of `seed` makes. -/
abbrev sw (v : W128) : ℕ → BitVec 64 := val 6364136223846793005 62 (start0 v) (u64 v 0)

theorem seedLoop_word (v : W128) : ∀ (k i : ℕ) (m : ℕ → BitVec 64), 1 ≤ i → (∀ j, j < i → m j = sw v j) →
    (∀ j, i ≤ j → m j = start0 v j) → ∀ j, j < i + k → seedLoop k i m j = sw v j
  | 0, i, m, _, h, _, j, hj => h j hj
  | k + 1, i, m, hi, h, h', j, hj => by
    rw [seedLoop]
    refine seedLoop_word v k (i + 1) _ (by omega) (fun j hj => ?_) (fun j h1 => ?_) j (by omega)
    · by_cases e : j = i
      · subst e
        rw [Function.update_self, h' j le_rfl, h (j - 1) (by omega)]
        obtain ⟨a, rfl⟩ : ∃ a, j = a + 1 := ⟨j - 1, by omega⟩
        rfl
      · rw [Function.update_of_ne e]
        exact h j (by omega)
    · rw [Function.update_of_ne (by omega)]
      exact h' j (by omega)

theorem seed_words (v : W128) (k : ℕ) {j : ℕ} (hj : j < 1 + k) :
    seedLoop k 1 (Function.update (Function.update (fun _ => 0) 0 (u64 v 0)) 1 (u64 v 1)) j = sw v j := by
  refine seedLoop_word v k 1 _ le_rfl (fun j hj => ?_) (fun j h1 => ?_) j hj
  · obtain rfl : j = 0 := by omega
    rfl
  · unfold start0
    by_cases e : j = 1
    · rw [if_pos e, e, Function.update_self]
    · rw [if_neg e, Function.update_of_ne e, Function.update_of_ne (by omega)]

theorem seed_lung {s : St} (hs : Inv n s) (v : W128) : (seed v s).lung = mk64 (sw v (n * 2)) (sw v (n * 2 + 1)) := by
  show mk64 (seedLoop _ 1 _ (s.size * 2)) (seedLoop _ 1 _ (s.size * 2 + 1)) = _
  rw [hs.size, seed_words v _ (by omega), seed_words v _ (by omega)]

theorem seed_state {s : St} (hs : Inv n s) (v : W128) {k : ℕ} (hk : k < n) : (seed v s).state k =
    mk64 ((sw v (k * 2) &&& 0x000fffffffffffff) ||| s.pfx) ((sw v (k * 2 + 1) &&& 0x000fffffffffffff) ||| s.pfx) := by
  unfold seed
  dsimp only
  rw [setupPrefix_state ?_ hk]
  · dsimp only
    rw [hs.size, fold_set (fun i => mk64 (seedLoop ((n + 1) * 2 - 1) 1 _ (i * 2)) (seedLoop ((n + 1) * 2 - 1) 1 _ (i * 2 + 1))) n _ hk,
      (u64_mk64 _ _).1, (u64_mk64 _ _).2, seed_words v _ (by omega), seed_words v _ (by omega)]
  · exact hs.size

/-- What `seed` makes of the second half of its argument. -/
def second (a b : BitVec 64) : BitVec 64 := b ^^^ ((1 : BitVec 64) + (6364136223846793005 : BitVec 64) * (a ^^^ (a >>> 62)))

theorem second_inj {a a' b : BitVec 64} (h : second a b = second a' b) : a = a' :=
  step_inj (i := 0xc097ef87329e28a5) (by omega) (by decide) h

theorem second_second (a b c : BitVec 64) : second a b = c ↔ b = second a c := by
  unfold second
  generalize (1 : BitVec 64) + (6364136223846793005 : BitVec 64) * (a ^^^ (a >>> 62)) = q
  constructor <;>
  · rintro rfl
    rw [BitVec.xor_assoc, BitVec.xor_self, BitVec.xor_zero]

theorem sw_one (v : W128) : sw v 1 = second (u64 v 0) (u64 v 1) := rfl

/-- The bits of a state word that `setup_prefix` keeps. -/
abbrev m52 : BitVec 64 := 0x000fffffffffffff

theorem m52_bit (i : ℕ) : m52.getLsbD i = decide (i < 52) := by
  by_cases hi : i < 64
  · revert i; decide
  · rw [BitVec.getLsbD_of_ge _ _ (by omega), eq_comm, decide_eq_false_iff_not]; omega

theorem split52 (x y : BitVec 64) (top : BitVec 12) : x >>> 52 = top.setWidth 64 ∧ x &&& m52 = y &&& m52 ↔
    x = (y &&& m52) ||| ((top.setWidth 64 : BitVec 64) <<< 52) := by
  constructor
  · rintro ⟨h1, h2⟩
    rw [← h1, ← h2]
    apply BitVec.eq_of_getLsbD_eq
    intro i hi
    rw [BitVec.getLsbD_or, BitVec.getLsbD_and, BitVec.getLsbD_shiftLeft, BitVec.getLsbD_ushiftRight, m52_bit]
    by_cases h : i < 52
    · simp [h]
    · simp [h, hi, show 52 + (i - 52) = i by omega]
  · rintro rfl
    constructor
    · apply BitVec.eq_of_getLsbD_eq
      intro i hi
      rw [BitVec.getLsbD_ushiftRight, BitVec.getLsbD_or, BitVec.getLsbD_and, BitVec.getLsbD_shiftLeft, m52_bit, BitVec.getLsbD_setWidth,
        BitVec.getLsbD_setWidth, show 52 + i - 52 = i by omega]
      by_cases h : i < 12
      · rw [show decide (52 + i < 64) = true from decide_eq_true (by omega)]
        simp [hi]
      · rw [BitVec.getLsbD_of_ge top i (by omega)]
        simp
    · apply BitVec.eq_of_getLsbD_eq
      intro i hi
      rw [BitVec.getLsbD_and, BitVec.getLsbD_or, BitVec.getLsbD_and, BitVec.getLsbD_shiftLeft, m52_bit]
      by_cases h : i < 52
      · simp [h]
      · simp [h]

theorem sw_later {v v' : W128} (h : sw v 1 = sw v' 1) : ∀ j, sw v (j + 1) = sw v' (j + 1)
  | 0 => h
  | j + 1 => by
    have e := sw_later h j
    show start0 v (j + 1 + 1) ^^^ (_ + _ * (sw v (j + 1) ^^^ (sw v (j + 1) >>> 62))) =
      start0 v' (j + 1 + 1) ^^^ (_ + _ * (sw v' (j + 1) ^^^ (sw v' (j + 1) >>> 62)))
    rw [e]
    rfl

/-- **C113, the class of dSFMTsearch.hpp.**  `seed` is a clean restart and never gives the zero state.  The state depends on the lower 52 bits of
the first half of the seed and on one combination of both halves, and on nothing else. -/
theorem seed_restarts {s t : St} (hs : Inv n s) (ht : Inv n t) (hp : cfg s = cfg t) (hq : s.pfx = t.pfx) (hpfx : s.pfx &&& 0x000fffffffffffff = 0)
    (hn : n < 2 ^ 32) :
    (∀ v k, outAt (ops n) (seed v s) k = outAt (ops n) (seed v t) k) ∧ (∀ v, den n (seed v s) ≠ 0) ∧
    ∀ v v', den n (seed v s) = den n (seed v' s) ↔
      u64 v 0 &&& 0x000fffffffffffff = u64 v' 0 &&& 0x000fffffffffffff ∧ second (u64 v 0) (u64 v 1) = second (u64 v' 0) (u64 v' 1) := by
  have h2 := hs.two
  have L := linGen (n := n) (cfg s)
  refine ⟨fun v k => outAt_congr L (seed_inv hs v) ⟨(seed_inv ht v).1, (seed_inv ht v).2.trans hp.symm⟩
    (seed_den_eq hs ht (congrArg Cfg.weight hp) hq v) k, fun v h => ?_, fun v v' => ⟨fun h => ?_, fun h => ?_⟩⟩
  · have hl : (seed v s).lung = 0 := congrArg (fun q : S n => q.1.2.val) h
    rw [seed_lung hs, ← mk64_zero] at hl
    obtain ⟨e1, e2⟩ := mk64_inj hl
    exact ofNat_ne_zero (by omega) (by omega) ((val_after_zero (if_neg (by omega)) e1).symm.trans e2)
  · have hl : (seed v s).lung = (seed v' s).lung := congrArg (fun q : S n => q.1.2.val) h
    have h0 : (seed v s).state ((0 + (n - 1 + 1)) % n) = (seed v' s).state ((0 + (n - 1 + 1)) % n) :=
      congrArg (fun q : S n => (q.1.1 ⟨n - 1, by omega⟩).val) h
    rw [show 0 + (n - 1 + 1) = n by omega, Nat.mod_self, seed_state hs _ (by omega), seed_state hs _ (by omega)] at h0
    rw [seed_lung hs, seed_lung hs] at hl
    have e0 : (u64 v 0 &&& 0x000fffffffffffff) ||| s.pfx = (u64 v' 0 &&& 0x000fffffffffffff) ||| s.pfx := (mk64_inj h0).1
    have hm : ∀ x : BitVec 64, ((x &&& 0x000fffffffffffff) ||| s.pfx) &&& 0x000fffffffffffff = x &&& 0x000fffffffffffff := fun x => by
      rw [BitVec.and_or_distrib_right, hpfx, BitVec.and_assoc, BitVec.and_self]
      exact BitVec.or_zero
    refine ⟨by rw [← hm, e0, hm], ?_⟩
    rw [← sw_one, ← sw_one]
    refine val_back (i := 0xc097ef87329e28a5) (by omega) (by decide) (n * 2) (fun j h1 _ => ?_) (by rw [Nat.add_comm]; exact (mk64_inj hl).2)
    unfold start0
    rw [if_neg (by omega), if_neg (by omega)]
  · have h1 : sw v 1 = sw v' 1 := h.2
    have hst : ∀ k, k < n → (seed v s).state k = (seed v' s).state k := fun k hk => by
      rw [seed_state hs _ hk, seed_state hs _ hk, sw_later h1]
      rcases k with _ | k
      · rw [Nat.zero_mul, show sw v 0 = u64 v 0 from rfl, show sw v' 0 = u64 v' 0 from rfl, h.1]
      · rw [show (k + 1) * 2 = k * 2 + 1 + 1 by omega, sw_later h1]
    refine Prod.ext (Prod.ext ?_ ?_) ?_
    · funext j
      show Wd.of ((seed v s).state ((0 + ((j : ℕ) + 1)) % n)) = Wd.of ((seed v' s).state ((0 + ((j : ℕ) + 1)) % n))
      rw [hst _ (Nat.mod_lt _ (by omega))]
    · show Wd.of (seed v s).lung = Wd.of (seed v' s).lung
      rw [seed_lung hs, seed_lung hs, show n * 2 = n * 2 - 1 + 1 by omega, sw_later h1, sw_later h1]
    · show Wd.of (mk64 0 0 &&& keep s.weightMode) = Wd.of (mk64 0 0 &&& keep s.weightMode)
      rfl

/-- **C113.**  Different seeds with the same first half, and different seeds with the same second half, give different states; but every state
that `seed` can give belongs to exactly 4096 seeds, one for each value of the upper twelve bits of the first half. -/
theorem seed_collisions {s : St} (hs : Inv n s) (hpfx : s.pfx &&& 0x000fffffffffffff = 0) (hn : n < 2 ^ 32) :
    (∀ a b b', b ≠ b' → den n (seed (mk64 a b) s) ≠ den n (seed (mk64 a b') s)) ∧
    (∀ a a' b, a ≠ a' → den n (seed (mk64 a b) s) ≠ den n (seed (mk64 a' b) s)) ∧
    ∀ v (top : BitVec 12), ∃! v', u64 v' 0 >>> 52 = top.setWidth 64 ∧ den n (seed v' s) = den n (seed v s) := by
  obtain ⟨-, -, K⟩ := seed_restarts hs hs rfl rfl hpfx hn
  refine ⟨fun a b b' hb h => hb ?_, fun a a' b ha h => ha ?_, fun v top => ?_⟩
  · have := ((K _ _).1 h).2
    rw [(u64_mk64 _ _).1, (u64_mk64 _ _).2, (u64_mk64 _ _).1, (u64_mk64 _ _).2] at this
    exact (BitVec.xor_left_inj _).1 this
  · have := ((K _ _).1 h).2
    rw [(u64_mk64 _ _).1, (u64_mk64 _ _).2, (u64_mk64 _ _).1, (u64_mk64 _ _).2] at this
    exact second_inj this
  · obtain ⟨a, ha⟩ : ∃ a, a = (u64 v 0 &&& m52) ||| ((top.setWidth 64 : BitVec 64) <<< 52) := ⟨_, rfl⟩
    obtain ⟨k1, k2⟩ := (split52 a _ top).2 ha
    refine ⟨mk64 a (second a (second (u64 v 0) (u64 v 1))), ⟨?_, ?_⟩, ?_⟩
    · rw [(u64_mk64 _ _).1, k1]
    · rw [K, (u64_mk64 _ _).1, (u64_mk64 _ _).2]
      exact ⟨k2, (second_second _ _ _).2 rfl⟩
    · rintro y ⟨y1, y2⟩
      rw [K] at y2
      have ea : u64 y 0 = a := ((split52 _ _ top).1 ⟨y1, y2.1⟩).trans ha.symm
      have eb := (second_second _ _ _).1 y2.2
      rw [← mk64_eta y, eb, ea]

end MTT.DSFMT

namespace MTT.TinyMT

open PIS Search Seeding

/-- **C113, the class of tinymt32search.hpp.**  `seed` is a clean restart, gives the zero state for the seed 0 only, and different seeds give
different states; if the period is maximal and the output not always 0 the streams differ again and again. -/
theorem seed_restarts {s t : St} (hp : SamePar s t) (hrev : s.rev = false) :
    (∀ v k, outAt ops (seed v s) k = outAt ops (seed v t) k) ∧ (∀ v, den (seed v s) = 0 ↔ v = 0) ∧
    ∀ v v', v ≠ v' → den (seed v s) ≠ den (seed v' s) ∧
      ((∀ u, SamePar s u → den u ≠ 0 → ∀ k, den (stateAt ops u k) = den u ↔ 2 ^ 127 - 1 ∣ k) →
        (∃ u, SamePar s u ∧ (generate u).2 ≠ 0) → ∀ K, ∃ k, K ≤ k ∧ outAt ops (seed v s) k ≠ outAt ops (seed v' s) k) := by
  have L := linGen s hrev
  refine ⟨fun v k => outAt_congr L (a := seed v s) (b := seed v t) ⟨rfl, rfl, rfl, rfl⟩ hp rfl k, fun v => ?_, fun v v' hv => ?_⟩
  · rw [← isZero_iff, seed_isZero]
  · have hd : den (seed v s) ≠ den (seed v' s) := fun h => hv (congrArg (fun q : S => q.2.2.2.val) h)
    exact ⟨hd, fun hmax hO => outAt_differ L (by omega) finrank_S hmax hO (a := seed v s) (b := seed v' s) ⟨rfl, rfl, rfl, rfl⟩ ⟨rfl, rfl, rfl, rfl⟩ hd⟩

end MTT.TinyMT

namespace MTT.XorShift

open PIS Search Seeding

/-- **C113, the class of xorshift-4.cpp.**  `seed` is a clean restart, never gives the zero state, and different seeds give different states; if the
period is maximal the streams differ again and again. -/
theorem seed_restarts {s t : St} (hp : SamePar s t) :
    (∀ v k, outAt ops (seed v s) k = outAt ops (seed v t) k) ∧ (∀ v, den (seed v s) ≠ 0) ∧
    ∀ v v', v ≠ v' → den (seed v s) ≠ den (seed v' s) ∧
      ((∀ u, SamePar s u → den u ≠ 0 → ∀ k, den (stateAt ops u k) = den u ↔ 2 ^ 128 - 1 ∣ k) →
        (∃ u, SamePar s u ∧ (generate u).2 ≠ 0) → ∀ K, ∃ k, K ≤ k ∧ outAt ops (seed v s) k ≠ outAt ops (seed v' s) k) := by
  have L := linGen s
  refine ⟨fun v k => outAt_congr L (a := seed v s) (b := seed v t) ⟨rfl, rfl, rfl, rfl⟩ hp rfl k, fun v h => ?_, fun v v' hv => ?_⟩
  · rw [← isZero_iff, seed_not_zero] at h
    cases h
  · have hd : den (seed v s) ≠ den (seed v' s) := fun h => hv (congrArg (fun q : S => q.1.val) h)
    exact ⟨hd, fun hmax hO => outAt_differ L (by omega) finrank_S hmax hO (a := seed v s) (b := seed v' s) ⟨rfl, rfl, rfl, rfl⟩ ⟨rfl, rfl, rfl, rfl⟩ hd⟩

end MTT.XorShift

/-! ## The hypotheses are met -/

namespace MTT.MTDC

open PIS Search Seeding MTRec

/-- **C113.**  With the recurrence of MT19937, whatever the tempering masks, the streams of two different seeds differ again and again. -/
theorem seeds_mt19937 {s : St} (hs : Inv 624 31 s) (hpos : s.pos = 397) (ha : s.mata = 0x9908b0df) (hrev : s.rev = false) (mexp : ℕ) {v v' : BitVec 32}
    (hv : v ≠ v') (K : ℕ) : ∃ k, K ≤ k ∧ outAt (ops mexp) (seed v s) k ≠ outAt (ops mexp) (seed v' s) k := by
  have L := linGen (n := 624) (r := 31) mexp (par s) hrev
  have hP : rec 624 31 (par s) = MT.P32 := by
    unfold rec par
    rw [hpos, ha]
    rfl
  have hm : s.mexp = 19937 := by have := hs.mexp; omega
  have hT : ∀ y, Polynomial.aeval (T 624 31 (par s)) (charPoly (rec 624 31 (par s))) y = 0 :=
    aeval_charPoly (rec_ok hs) (by rw [hP]; decide) (by rw [hP]; decide) (by rw [hP]; decide)
  have hq : Primitive2 (charPoly (rec 624 31 (par s))) s.mexp := by
    rw [hP]
    exact GF2.MT32.primitive hm
  obtain ⟨-, h0, h1⟩ := seed_restarts hs hs rfl hrev mexp
  refine (h1 v v' hv).2 (fun u hu hp hn k => ?_) ?_ K
  · rw [(stateAt_spec L (g := u) ⟨hu, hp⟩ k).2]
    exact period_of_primitive (by omega) hq (hT _) hn k
  · obtain ⟨i, hi⟩ := low_bit (rec_ok hs) (show 2 ≤ s.pos by omega) (mexp := s.mexp) (by omega) (finrank_S hs) hq hT (h0 (by omega) v)
    obtain ⟨u1, u2⟩ := stateAt_spec L (g := seed v s) (seed_inv hs v) i
    refine ⟨_, u1.1, u1.2, fun h => ?_⟩
    have e := L.gen_out _ u1
    rw [u2] at e
    have e' : bits (generate (stateAt (ops mexp) (seed v s) i)).2 = bits (out 624 31 (par s) ((T 624 31 (par s) ^ i) (den 624 31 (seed v s)))) := e
    rw [h] at e'
    rw [← bits_inj e'] at hi
    simp at hi

/-- Such objects exist. -/
example : ∃ s, Inv 624 31 s ∧ s.pos = 397 ∧ s.mata = 0x9908b0df ∧ s.rev = false ∧ s.maskb = 0x9d2c5680 ∧ s.maskc = 0xefc60000 :=
  ⟨⟨19937, 624, 623, fun _ => 0, 397, 0x9908b0df, 0x9d2c5680, 0xefc60000, MTRec.upper 32 31, ~~~ MTRec.upper 32 31, 45279, false⟩,
    ⟨rfl, rfl, by decide, by decide, rfl, rfl, by decide, by decide⟩, rfl, rfl, rfl, rfl, rfl⟩

end MTT.MTDC

namespace MTT.RMT

-- RMT with the exponent 19937
example (v v' : BitVec 64) (hv : v ≠ v') : ∃ s, Inv 312 s ∧ s.rev = false ∧ den 312 (seed v s) ≠ den 312 (seed v' s) := by
  obtain ⟨h1, h2⟩ := ctorPar_inv 19937 23 0x8000000000000001 0 0 1 (fun _ => 0) (by decide)
  have hr := congrArg Par.rev h2
  exact ⟨_, h1, hr, (seed_restarts h1 h1 rfl hr).2.2 v v' hv⟩

end MTT.RMT

namespace MTT.SFMT

open PIS W128

-- SFMT19937
example (v v' : W128) (hv : v ≠ v') : ∃ s, Inv 156 s ∧ s.rev = false ∧ s.weightMode = 4 ∧
    ∃ k, outAt (ops 156) (seed v s) k ≠ outAt (ops 156) (seed v' s) k := by
  have hp : ParOK ⟨122, 18, 1, 11, 1, 0xdfffffef, 0xddfecb7f, 0xbffaffff, 0xbffffff6⟩ :=
    ⟨by decide, by decide, by decide, by decide, by decide, by decide⟩
  obtain ⟨h1, h2⟩ := ctorPar_inv (mexp := 19937) (by decide) hp (by decide) (by decide) 1 0 0 0x13c9e684
  exact ⟨_, h1, congrArg Cfg.rev h2, congrArg Cfg.weight h2, ((seed_restarts h1 h1 rfl (congrArg Cfg.rev h2)).2.2 v v' hv).2 (congrArg Cfg.weight h2)⟩

end MTT.SFMT

namespace MTT.DSFMT

open PIS W128

-- dSFMT521: two seeds with one stream
example : ∃ s, Inv 4 s ∧ ∃ v v' : W128, v ≠ v' ∧ den 4 (seed v s) = den 4 (seed v' s) := by
  obtain ⟨h1, h2⟩ := ctorPar_inv (mexp := 521) (by decide) (p := ⟨3, 25, 0x000fbfefff77efff, 0x000ffeebfbdfbfdf⟩)
    (by decide) (by decide) (by decide) 0xcfb393d661638469 0xc166867883ae2adb 0xccaa588000000000 0x0000000000000001
  refine ⟨_, h1, mk64 0 0, mk64 0x8000000000000000 (second 0x8000000000000000 1), by decide, ?_⟩
  rw [(seed_restarts h1 h1 rfl rfl (by decide) (by decide)).2.2]
  decide

end MTT.DSFMT

namespace MTT.TinyMT

-- different objects with the same parameters
example : SamePar (seed 1 (setUpParam 3 (ctor 1))) (seed 2 (setUpParam 3 (ctor 1))) ∧ (setUpParam 3 (ctor 1)).rev = false := ⟨⟨rfl, rfl, rfl, rfl⟩, rfl⟩

end MTT.TinyMT
