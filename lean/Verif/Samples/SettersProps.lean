import Verif.Samples.Setters
import Verif.Samples.W128Props
import Verif.Samples.DSFMTProps
import Verif.Samples.DSFMTDC
import Verif.Util.Lemmas2

/-!
# C114: what the setters of the sample classes change

`wordAt gen s k` is what call `k` (counted from 0) of the function `gen` returns on an object that starts as `s`.
-/

namespace MTT.Setters

/-- The word returned by call `k` of `gen`. -/
def wordAt {σ : Type} {w : ℕ} (gen : σ → σ × BitVec w) (s : σ) (k : ℕ) : BitVec w :=
  (gen ((fun g => (gen g).1)^[k] s)).2

/-- `x` shows the `v` leading bits of `y`, most significant bit first, and zeros. -/
def ShowsMsb {w : ℕ} (v : ℕ) (x y : BitVec w) : Prop :=
  ∀ c < w, x.getMsbD c = (decide (c < v) && y.getMsbD c)

/-- `x` shows the `v` lowest bits of `y`, least significant bit first, and zeros. -/
def ShowsLsb {w : ℕ} (v : ℕ) (x y : BitVec w) : Prop :=
  ∀ c < w, x.getMsbD c = (decide (c < v) && y.getLsbD c)

/-- What `setReverseOutput` (`set`) and `resetReverseOutput` (`reset`) have to do: `generate()` is not affected,
`generate(v)` shows the bits of the words of `generate()` from the least, respectively most significant end, each
call undoes the other and a repeated call does nothing. -/
structure IsReverse {σ : Type} {w : ℕ} (gen : σ → σ × BitVec w) (genV : ℕ → σ → σ × BitVec w) (set reset : σ → σ) :
    Prop where
  gen_set : ∀ s k, wordAt gen (set s) k = wordAt gen s k
  gen_reset : ∀ s k, wordAt gen (reset s) k = wordAt gen s k
  set_lsb : ∀ s v k, 1 ≤ v → v ≤ w → ShowsLsb v (wordAt (genV v) (set s) k) (wordAt gen s k)
  reset_msb : ∀ s v k, 1 ≤ v → v ≤ w → ShowsMsb v (wordAt (genV v) (reset s) k) (wordAt gen s k)
  reset_set : ∀ s, reset (set s) = reset s
  set_reset : ∀ s, set (reset s) = set s
  set_set : ∀ s, set (set s) = set s
  reset_reset : ∀ s, reset (reset s) = reset s

section generic
variable {σ : Type} {w : ℕ} {gen : σ → σ × BitVec w} {genV : ℕ → σ → σ × BitVec w}

theorem iter_comm {f : σ → σ} (step step' : σ → σ) (h : ∀ s, step' (f s) = f (step s)) (s : σ) (k : ℕ) :
    step'^[k] (f s) = f (step^[k] s) := by
  induction k with
  | zero => rfl
  | succ k ih => rw [Function.iterate_succ_apply', Function.iterate_succ_apply', ih, h]

theorem word_comm {f : σ → σ} (h : ∀ s, gen (f s) = (f (gen s).1, (gen s).2)) (s : σ) (k : ℕ) :
    wordAt gen (f s) k = wordAt gen s k := by
  unfold wordAt
  rw [iter_comm (fun g => (gen g).1) _ (fun s => by rw [h]) s k, h]

theorem wordV_comm {f : σ → σ} {F : BitVec w → BitVec w} {v : ℕ}
    (h : ∀ s, genV v (f s) = (f (gen s).1, F (gen s).2)) (s : σ) (k : ℕ) :
    wordAt (genV v) (f s) k = F (wordAt gen s k) := by
  unfold wordAt
  rw [iter_comm (fun g => (gen g).1) _ (fun s => by rw [h]) s k, h]

theorem mask_msb {w : ℕ} (x : BitVec w) {v : ℕ} (hv : v ≤ w) (c : ℕ) (hc : c < w) :
    (x &&& ((~~~ (0 : BitVec w)) <<< (w - v))).getMsbD c = (decide (c < v) && x.getMsbD c) := by
  rw [BitVec.getMsbD_eq_getLsbD, BitVec.getMsbD_eq_getLsbD, BitVec.getLsbD_and, BitVec.getLsbD_shiftLeft,
    BitVec.getLsbD_not]
  by_cases h : c < v
  · simp [h, hc, show ¬ (w - 1 - c < w - v) by omega, show w - 1 - c < w by omega,
      show w - 1 - c - (w - v) < w by omega]
  · simp [h, hc, show w - 1 - c < w - v by omega]

theorem isReverse {set reset : σ → σ} {rv : BitVec w → BitVec w}
    (hr : ∀ (x : BitVec w) c, c < w → (rv x).getLsbD c = x.getLsbD (w - 1 - c))
    (g1 : ∀ s, gen (set s) = (set (gen s).1, (gen s).2)) (g2 : ∀ s, gen (reset s) = (reset (gen s).1, (gen s).2))
    (g3 : ∀ v s, genV v (set s) = (set (gen s).1, rv (gen s).2 &&& ((~~~ (0 : BitVec w)) <<< (w - v))))
    (g4 : ∀ v s, genV v (reset s) = (reset (gen s).1, (gen s).2 &&& ((~~~ (0 : BitVec w)) <<< (w - v))))
    (r1 : ∀ s, reset (set s) = reset s) (r2 : ∀ s, set (reset s) = set s) (r3 : ∀ s, set (set s) = set s)
    (r4 : ∀ s, reset (reset s) = reset s) : IsReverse gen genV set reset where
  gen_set := word_comm g1
  gen_reset := word_comm g2
  set_lsb s v k h1 h2 c hc := by
    rw [wordV_comm (F := fun x => rv x &&& ((~~~ (0 : BitVec w)) <<< (w - v))) (g3 v) s k, mask_msb _ h2 c hc,
      BitVec.getMsbD_eq_getLsbD (rv _), hr _ _ (by omega), show w - 1 - (w - 1 - c) = c by omega]
    simp [hc]
  reset_msb s v k h1 h2 c hc := by
    rw [wordV_comm (F := fun x => x &&& ((~~~ (0 : BitVec w)) <<< (w - v))) (g4 v) s k, mask_msb _ h2 c hc]
  reset_set := r1
  set_reset := r2
  set_set := r3
  reset_reset := r4

end generic

end MTT.Setters

namespace MTT

open Setters

/-- **C114**, mt2.cpp. -/
theorem MTDC.reverse_output : IsReverse MTDC.generate MTDC.generateV MTDC.setReverse MTDC.resetReverse :=
  isReverse (rv := Util.reverseBit32) (fun x c hc => Util.reverseBit32_spec x c hc) (fun _ => rfl) (fun _ => rfl)
    (fun _ _ => rfl) (fun _ _ => rfl) (fun _ => rfl) (fun _ => rfl) (fun _ => rfl) (fun _ => rfl)

/-- **C114**, MTGP32search.hpp. -/
theorem MTGP.reverse_output : IsReverse MTGP.generate MTGP.generateV MTGP.setReverse MTGP.resetReverse :=
  isReverse (rv := Util.reverseBit32) (fun x c hc => Util.reverseBit32_spec x c hc) (fun _ => rfl) (fun _ => rfl)
    (fun _ _ => rfl) (fun _ _ => rfl) (fun _ => rfl) (fun _ => rfl) (fun _ => rfl) (fun _ => rfl)

/-- **C114**, rmt64.hpp. -/
theorem RMT.reverse_output : IsReverse RMT.generate RMT.generateV RMT.setReverse RMT.resetReverse :=
  isReverse (rv := Util.reverseBit64) (fun x c hc => Util.reverseBit64_spec x c hc) (fun _ => rfl) (fun _ => rfl)
    (fun _ _ => rfl) (fun _ _ => rfl) (fun _ => rfl) (fun _ => rfl) (fun _ => rfl) (fun _ => rfl)

theorem TinyMT.gen_frame (b : Bool) (s : TinyMT.St) : TinyMT.generate { s with rev := b } =
    ({ (TinyMT.generate s).1 with rev := b }, (TinyMT.generate s).2) := by
  have h : TinyMT.nextState { s with rev := b } = { TinyMT.nextState s with rev := b } := by
    unfold TinyMT.nextState
    dsimp only
    split <;> rfl
  unfold TinyMT.generate
  rw [h]
  rfl

/-- **C114**, tinymt32search.hpp. -/
theorem TinyMT.reverse_output : IsReverse TinyMT.generate TinyMT.generateV TinyMT.setReverse TinyMT.resetReverse :=
  isReverse (rv := Util.reverseBit32) (fun x c hc => Util.reverseBit32_spec x c hc)
    (fun s => TinyMT.gen_frame true s) (fun s => TinyMT.gen_frame false s)
    (fun v s => by
      unfold TinyMT.generateV TinyMT.setReverse
      dsimp only
      rw [TinyMT.gen_frame]
      rfl)
    (fun v s => by
      unfold TinyMT.generateV TinyMT.resetReverse
      dsimp only
      rw [TinyMT.gen_frame]
      rfl) (fun _ => rfl) (fun _ => rfl) (fun _ => rfl) (fun _ => rfl)


/-! ## `class sfmt` -/

namespace SFMT

open W128

namespace Modes

/-- The 128-bit word that the recursion made last, after `k` further steps. -/
def block (s : St) (k : ℕ) : W128 := (nextState^[k] s).state (nextState^[k] s).index

/-- The 32-bit words of the blocks in order: words 0 to 3 are those made last. -/
def word (s : St) (m : ℕ) : BitVec 32 := u (block s (m / 4)) (m % 4)

theorem gen_frame (b : Bool) (s : St) :
    generate { s with rev := b } = ({ (generate s).1 with rev := b }, (generate s).2) := rfl

theorem maskV (x : W128) {v : ℕ} (hv : v ≤ 128) :
    andMask x ((makeMsbMask v).getD 0) = x &&& ((~~~ (0 : BitVec 128)) <<< (128 - v)) := by
  rw [(makeMsbMask_correct v).1 v rfl hv, (bitwise_correct x _).2.1]
  rfl

end Modes

open Modes in
/-- **C114**, `set_reverse_bit` and `reset_reverse_bit` of sfmtsearch.hpp. -/
theorem reverse_output : IsReverse generate generateV setReverse resetReverse where
  gen_set := word_comm (gen_frame true)
  gen_reset := word_comm (gen_frame false)
  set_lsb s v k h1 h2 c hc := by
    have h : ∀ s, generateV v (setReverse s) = (setReverse (generate s).1,
        (generate s).2.reverse &&& ((~~~ (0 : BitVec 128)) <<< (128 - v))) := fun s => by
      rw [← maskV _ h2, ← (reverseBit_correct _).1]
      rfl
    rw [wordV_comm (F := fun x => x.reverse &&& ((~~~ (0 : BitVec 128)) <<< (128 - v))) h s k, mask_msb _ h2 c hc,
      BitVec.getMsbD_reverse]
  reset_msb s v k h1 h2 c hc := by
    have h : ∀ s, generateV v (resetReverse s) = (resetReverse (generate s).1,
        (generate s).2 &&& ((~~~ (0 : BitVec 128)) <<< (128 - v))) := fun s => by
      rw [← maskV _ h2]
      rfl
    rw [wordV_comm (F := fun x => x &&& ((~~~ (0 : BitVec 128)) <<< (128 - v))) h s k, mask_msb _ h2 c hc]
  reset_set _ := rfl
  set_reset _ := rfl
  set_set _ := rfl
  reset_reset _ := rfl

namespace Modes

/-- The first word of the sequence that start mode `a` shows: the block made next for 0, otherwise word `a` of the block
made last. -/
def offset (a : ℕ) : ℕ := if a = 0 then 4 else a

theorem iter_nextState (s : St) (hsz : 2 ≤ s.size) (hi : s.index < s.size) (k : ℕ) :
    (nextState^[k] s).size = s.size ∧ (nextState^[k] s).index < s.size ∧
    (nextState^[k] s).startMode = s.startMode ∧ (nextState^[k] s).weightMode = s.weightMode ∧
    (nextState^[k] s).previous = s.previous := by
  induction k with
  | zero => exact ⟨rfl, hi, rfl, rfl, rfl⟩
  | succ k ih =>
    rw [Function.iterate_succ_apply']
    refine ⟨ih.1, ?_, ih.2.2.1, ih.2.2.2.1, ih.2.2.2.2⟩
    show ((nextState^[k] s).index + 1) % (nextState^[k] s).size < s.size
    rw [ih.1]
    exact Nat.mod_lt _ (by omega)

/-- The object with another value of `previous`. -/
def hold (x : W128) (s : St) : St := { s with previous := x }

/-- What is before the block written last. -/
theorem before (s : St) (hsz : 2 ≤ s.size) (hi : s.index < s.size) :
    (nextState s).state (((nextState s).index % s.size + s.size - 1) % s.size) = s.state s.index := by
  show Function.update s.state ((s.index + 1) % s.size) _ (((s.index + 1) % s.size % s.size + s.size - 1) % s.size) = _
  have h1 : ((s.index + 1) % s.size % s.size + s.size - 1) % s.size = s.index := by
    rw [Nat.mod_mod]
    by_cases h : s.index + 1 = s.size
    · rw [h, Nat.mod_self, Nat.zero_add, Nat.mod_eq_of_lt (by omega)]
      omega
    · rw [Nat.mod_eq_of_lt (show s.index + 1 < s.size by omega),
        show s.index + 1 + s.size - 1 = s.index + s.size by omega, Nat.add_mod_right, Nat.mod_eq_of_lt hi]
  rw [h1, Function.update_of_ne]
  intro h
  by_cases h' : s.index + 1 = s.size
  · rw [h', Nat.mod_self] at h
    omega
  · rw [Nat.mod_eq_of_lt (show s.index + 1 < s.size by omega)] at h
    omega

theorem generate_eq (s : St) (hsz : 2 ≤ s.size) (hi : s.index < s.size) :
    generate s = (hold (select s.startMode (block s 0) (block s 1)) (nextState s),
      merge s.weightMode (select s.startMode (block s 0) (block s 1)) s.previous) := by
  have h1 : (nextState s).index % s.size = (nextState s).index := Nat.mod_eq_of_lt (iter_nextState s hsz hi 1).2.1
  have h2 := before s hsz hi
  rw [h1] at h2
  have h3 : block s 0 = s.state s.index := rfl
  have h4 : block s 1 = (nextState s).state (nextState s).index := rfl
  rw [h3, h4, ← h2]
  have h5 : generate s = ({ nextState s with
      index := (nextState s).index % s.size,
      previous := select s.startMode ((nextState s).state (((nextState s).index % s.size + s.size - 1) % s.size))
        ((nextState s).state ((nextState s).index % s.size)) },
      merge s.weightMode (select s.startMode
        ((nextState s).state (((nextState s).index % s.size + s.size - 1) % s.size))
        ((nextState s).state ((nextState s).index % s.size))) s.previous) := rfl
  rw [h5, h1]
  rfl

/-- What was shown before call `k`. -/
def shown (s : St) : ℕ → W128
  | 0 => s.previous
  | k + 1 => select s.startMode (block s k) (block s (k + 1))

theorem block_hold (s : St) (x : W128) (k : ℕ) : block (hold x s) k = block s k := by
  unfold block
  rw [iter_comm (f := hold x) nextState nextState (fun s => rfl) s k]
  rfl

theorem generate_hold (s : St) (hsz : 2 ≤ s.size) (hi : s.index < s.size) (x : W128) :
    generate (hold x s) = (hold (select s.startMode (block s 0) (block s 1)) (nextState s),
      merge s.weightMode (select s.startMode (block s 0) (block s 1)) x) := by
  rw [generate_eq (hold x s) hsz hi, block_hold, block_hold]
  rfl

theorem block_add (s : St) (j k : ℕ) : block (nextState^[k] s) j = block s (k + j) := by
  unfold block
  rw [← Function.iterate_add_apply, Nat.add_comm j k]

theorem state_at (s : St) (hsz : 2 ≤ s.size) (hi : s.index < s.size) (k : ℕ) :
    (fun g => (generate g).1)^[k] s = hold (shown s k) (nextState^[k] s) := by
  induction k with
  | zero => rfl
  | succ k ih =>
    obtain ⟨a1, a2, a3, a4, a5⟩ := iter_nextState s hsz hi k
    rw [Function.iterate_succ_apply', ih, generate_hold _ (by rw [a1]; exact hsz) (by rw [a1]; exact a2), block_add,
      block_add, Function.iterate_succ_apply', a3]
    rfl

/-- The word `j` of the window that start mode `a` shows of two consecutive blocks. -/
theorem select_word (s : St) (k a j : ℕ) (ha : a < 4) (hj : j < 4) :
    u (select a (block s k) (block s (k + 1))) j = word s (4 * k + offset a + j) := by
  have key : ∀ m b, b < 4 → word s (4 * m + b) = u (block s m) b := fun m b hb => by
    unfold word
    rw [show (4 * m + b) / 4 = m by omega, show (4 * m + b) % 4 = b by omega]
  have hc : ∀ b < 4, ∀ m, m = 4 * k + b → word s m = u (block s k) b := fun b hb m hm => by rw [hm, key k b hb]
  have hn : ∀ b < 4, ∀ m, m = 4 * (k + 1) + b → word s m = u (block s (k + 1)) b := fun b hb m hm => by
    rw [hm, key (k + 1) b hb]
  generalize block s k = y at hc ⊢
  generalize block s (k + 1) = z at hn ⊢
  interval_cases a
  · obtain ⟨e0, e1, e2, e3⟩ := u_mk32 (u z 0) (u z 1) (u z 2) (u z 3)
    rw [show select (0 : ℕ) y z = mk32 (u z 0) (u z 1) (u z 2) (u z 3) from rfl]
    unfold offset
    interval_cases j
    · rw [e0, hn 0 (by omega) _ (by simp; omega)]
    · rw [e1, hn 1 (by omega) _ (by simp; omega)]
    · rw [e2, hn 2 (by omega) _ (by simp; omega)]
    · rw [e3, hn 3 (by omega) _ (by simp; omega)]
  · obtain ⟨e0, e1, e2, e3⟩ := u_mk32 (u y 1) (u y 2) (u y 3) (u z 0)
    rw [show select (1 : ℕ) y z = mk32 (u y 1) (u y 2) (u y 3) (u z 0) from rfl]
    unfold offset
    interval_cases j
    · rw [e0, hc 1 (by omega) _ (by simp)]
    · rw [e1, hc 2 (by omega) _ (by simp)]
    · rw [e2, hc 3 (by omega) _ (by simp)]
    · rw [e3, hn 0 (by omega) _ (by simp; omega)]
  · obtain ⟨e0, e1, e2, e3⟩ := u_mk32 (u y 2) (u y 3) (u z 0) (u z 1)
    rw [show select (2 : ℕ) y z = mk32 (u y 2) (u y 3) (u z 0) (u z 1) from rfl]
    unfold offset
    interval_cases j
    · rw [e0, hc 2 (by omega) _ (by simp)]
    · rw [e1, hc 3 (by omega) _ (by simp)]
    · rw [e2, hn 0 (by omega) _ (by simp; omega)]
    · rw [e3, hn 1 (by omega) _ (by simp; omega)]
  · obtain ⟨e0, e1, e2, e3⟩ := u_mk32 (u y 3) (u z 0) (u z 1) (u z 2)
    rw [show select (3 : ℕ) y z = mk32 (u y 3) (u z 0) (u z 1) (u z 2) from rfl]
    unfold offset
    interval_cases j
    · rw [e0, hc 3 (by omega) _ (by simp)]
    · rw [e1, hn 0 (by omega) _ (by simp; omega)]
    · rw [e2, hn 1 (by omega) _ (by simp; omega)]
    · rw [e3, hn 2 (by omega) _ (by simp; omega)]

theorem merge_word (r p : W128) (w j : ℕ) (h1 : 1 ≤ w) (h2 : w ≤ 4) (hj : j < 4) :
    u (merge w r p) j = if j < w then u r j else u p j := by
  interval_cases w
  · obtain ⟨e0, e1, e2, e3⟩ := u_mk32 (u r 0) (u p 1) (u p 2) (u p 3)
    rw [show merge (1 : ℕ) r p = mk32 (u r 0) (u p 1) (u p 2) (u p 3) from rfl]
    interval_cases j <;> simp [e0, e1, e2, e3]
  · obtain ⟨e0, e1, e2, e3⟩ := u_mk32 (u r 0) (u r 1) (u p 2) (u p 3)
    rw [show merge (2 : ℕ) r p = mk32 (u r 0) (u r 1) (u p 2) (u p 3) from rfl]
    interval_cases j <;> simp [e0, e1, e2, e3]
  · obtain ⟨e0, e1, e2, e3⟩ := u_mk32 (u r 0) (u r 1) (u r 2) (u p 3)
    rw [show merge (3 : ℕ) r p = mk32 (u r 0) (u r 1) (u r 2) (u p 3) from rfl]
    interval_cases j <;> simp [e0, e1, e2, e3]
  · rw [show merge (4 : ℕ) r p = r from rfl, if_pos (by omega)]

/-- What the modes show: call `k` returns, in the places `j < w`, the words of the sequence from number
`4 k + offset a` on, and in the other places those that the call before showed there (first call: what the object
holds). -/
theorem stream (s : St) (hsz : 2 ≤ s.size) (hi : s.index < s.size) (a w : ℕ) (ha : a < 4) (h1 : 1 ≤ w) (h2 : w ≤ 4)
    (hs : s.startMode = a) (hw : s.weightMode = w) (k j : ℕ) (hj : j < 4) :
    u (wordAt generate s k) j = if j < w then word s (4 * k + offset a + j)
      else if k = 0 then u s.previous j else word s (4 * (k - 1) + offset a + j) := by
  obtain ⟨a1, a2, a3, a4, a5⟩ := iter_nextState s hsz hi k
  unfold wordAt
  rw [state_at s hsz hi k, generate_hold _ (by rw [a1]; exact hsz) (by rw [a1]; exact a2), block_add, block_add]
  dsimp only
  rw [a3, a4, hs, hw, merge_word _ _ w j h1 h2 hj, select_word s (k + 0) a j ha hj]
  cases k with
  | zero => rfl
  | succ k =>
    rw [show shown s (k + 1) = select (a : ℕ) (block s k) (block s (k + 1)) by rw [← hs]; rfl, select_word s k a j ha hj]
    rfl

theorem word_frame (s : St) (a w : ℤ) (x : W128) (m : ℕ) :
    word ⟨s.mexp, s.size, s.index, a, w, s.state, s.param, s.parity1, s.parity2, s.parity3, s.parity4, s.rev, x⟩ m =
      word s m := by
  unfold word block
  rw [iter_comm (f := fun s : St => ⟨s.mexp, s.size, s.index, a, w, s.state, s.param, s.parity1, s.parity2, s.parity3,
    s.parity4, s.rev, x⟩) nextState nextState (fun s => rfl) s (m / 4)]

end Modes

open Modes

/-- **C114**, `setStartMode` and `setWeightMode` of sfmtsearch.hpp, for every object with at least two words: the two
calls commute, the getters return what was set, and after them call `k` of `generate()` returns in its places `j < w`
the words of the sequence that the object produces anyway, from word `a` of the block made last on (`a = 0`: from the
next block on), in the other places what the call before had there.  `setWeightMode` has these places empty at the first
call, `setStartMode` alone keeps what the object holds there. -/
theorem modes (s : St) (hsz : 2 ≤ s.size) (hi : s.index < s.size) (a w : ℕ) (ha : a < 4) (h1 : 1 ≤ w) (h2 : w ≤ 4) :
    setWeightMode w (setStartMode a s) = setStartMode a (setWeightMode w s) ∧
    getStartMode (setWeightMode w (setStartMode a s)) = a ∧ getWeightMode (setWeightMode w (setStartMode a s)) = w ∧
    (∀ k j, j < 4 → u (wordAt generate (setWeightMode w (setStartMode a s)) k) j =
      if j < w then word s (4 * k + offset a + j) else if k = 0 then 0 else word s (4 * (k - 1) + offset a + j)) ∧
    (getWeightMode s = w → ∀ k j, j < 4 → u (wordAt generate (setStartMode a s) k) j =
      if j < w then word s (4 * k + offset a + j)
      else if k = 0 then u s.previous j else word s (4 * (k - 1) + offset a + j)) := by
  refine ⟨rfl, rfl, rfl, fun k j hj => ?_, fun hw k j hj => ?_⟩
  · have h := stream (setWeightMode w (setStartMode a s)) hsz hi a w ha h1 h2 rfl rfl k j hj
    have e : ∀ m, word (setWeightMode w (setStartMode a s)) m = word s m := fun m => word_frame s a w (mk64 0 0) m
    have z : u (setWeightMode w (setStartMode a s)).previous j = 0 := by
      show u (mk64 0 0) j = 0
      rw [mk64_zero]
      interval_cases j <;> decide
    rw [h, e, e, z]
  · have h := stream (setStartMode a s) hsz hi a w ha h1 h2 rfl hw k j hj
    have e : ∀ m, word (setStartMode a s) m = word s m := fun m => word_frame s a s.weightMode s.previous m
    rw [h, e, e]
    rfl

/-- **C114**, `setParityValue` of sfmtsearch.hpp: `getParityValue` returns the value, the four parity words are its
words, and nothing else changes. -/
theorem set_parity (s : St) (v : W128) :
    getParityValue (setParityValue v s) = v ∧
    mk32 (setParityValue v s).parity1 (setParityValue v s).parity2 (setParityValue v s).parity3
      (setParityValue v s).parity4 = v ∧
    (∀ i, i ≠ s.index → (setParityValue v s).state i = s.state i) ∧
    ({ setParityValue v s with
      state := s.state, parity1 := s.parity1, parity2 := s.parity2, parity3 := s.parity3,
      parity4 := s.parity4 } : St) = s :=
  ⟨Function.update_self .., mk32_eta v, fun _ hi => Function.update_of_ne hi _ _, rfl⟩

end SFMT

/-- **C114**, `setParityValue` of rmt64.hpp. -/
theorem RMT.set_parity (s : RMT.St) (v : BitVec 64) :
    RMT.getParityValue (RMT.setParityValue v s) = v ∧ (RMT.setParityValue v s).parity = v ∧
    (∀ i, i ≠ s.index % s.size → (RMT.setParityValue v s).state i = s.state i) ∧
    ({ RMT.setParityValue v s with state := s.state, parity := s.parity } : RMT.St) = s :=
  ⟨Function.update_self .., rfl, fun _ hi => Function.update_of_ne hi _ _, rfl⟩

/-! ## `class dSFMT` -/

namespace DSFMT

open W128

namespace Modes

/-- The 128-bit word that the recursion made last, after `k` further steps. -/
def block (s : St) (k : ℕ) : W128 := (nextState^[k] s).state (nextState^[k] s).index

/-- The 64-bit words of the blocks in order: words 0 and 1 are those made last. -/
def word (s : St) (m : ℕ) : BitVec 64 := u64 (block s (m / 2)) (m % 2)

/-- The first word of the sequence that start mode `a` shows: the block made next for 0, otherwise word 1 of the block
made last. -/
def offset (a : ℕ) : ℕ := if a = 0 then 2 else 1

theorem iter_nextState (s : St) (hsz : 2 ≤ s.size) (hi : s.index < s.size) (k : ℕ) :
    (nextState^[k] s).size = s.size ∧ (nextState^[k] s).index < s.size ∧
    (nextState^[k] s).startMode = s.startMode ∧ (nextState^[k] s).weightMode = s.weightMode ∧
    (nextState^[k] s).previous = s.previous := by
  induction k with
  | zero => exact ⟨rfl, hi, rfl, rfl, rfl⟩
  | succ k ih =>
    rw [Function.iterate_succ_apply']
    refine ⟨ih.1, ?_, ih.2.2.1, ih.2.2.2.1, ih.2.2.2.2⟩
    show ((nextState^[k] s).index + 1) % (nextState^[k] s).size < s.size
    rw [ih.1]
    exact Nat.mod_lt _ (by omega)

/-- The object with another value of `previous`. -/
def hold (x : W128) (s : St) : St := { s with previous := x }

/-- What is before the block written last. -/
theorem before (s : St) (hsz : 2 ≤ s.size) (hi : s.index < s.size) :
    (nextState s).state (((nextState s).index % s.size + s.size - 1) % s.size) = s.state s.index := by
  show Function.update s.state ((s.index + 1) % s.size) _ (((s.index + 1) % s.size % s.size + s.size - 1) % s.size) = _
  have h1 : ((s.index + 1) % s.size % s.size + s.size - 1) % s.size = s.index := by
    rw [Nat.mod_mod]
    by_cases h : s.index + 1 = s.size
    · rw [h, Nat.mod_self, Nat.zero_add, Nat.mod_eq_of_lt (by omega)]
      omega
    · rw [Nat.mod_eq_of_lt (show s.index + 1 < s.size by omega),
        show s.index + 1 + s.size - 1 = s.index + s.size by omega, Nat.add_mod_right, Nat.mod_eq_of_lt hi]
  rw [h1, Function.update_of_ne]
  intro h
  by_cases h' : s.index + 1 = s.size
  · rw [h', Nat.mod_self] at h
    omega
  · rw [Nat.mod_eq_of_lt (show s.index + 1 < s.size by omega)] at h
    omega

theorem generate_eq (s : St) (hsz : 2 ≤ s.size) (hi : s.index < s.size) :
    generate s = (hold (select s.startMode (block s 0) (block s 1)) (nextState s),
      merge s.weightMode (select s.startMode (block s 0) (block s 1)) s.previous) := by
  have h1 : (nextState s).index % s.size = (nextState s).index := Nat.mod_eq_of_lt (iter_nextState s hsz hi 1).2.1
  have h2 := before s hsz hi
  rw [h1] at h2
  have h3 : block s 0 = s.state s.index := rfl
  have h4 : block s 1 = (nextState s).state (nextState s).index := rfl
  rw [h3, h4, ← h2]
  have h5 : generate s = ({ nextState s with
      index := (nextState s).index % s.size,
      previous := select s.startMode ((nextState s).state (((nextState s).index % s.size + s.size - 1) % s.size))
        ((nextState s).state ((nextState s).index % s.size)) },
      merge s.weightMode (select s.startMode
        ((nextState s).state (((nextState s).index % s.size + s.size - 1) % s.size))
        ((nextState s).state ((nextState s).index % s.size))) s.previous) := rfl
  rw [h5, h1]
  rfl

/-- What was shown before call `k`. -/
def shown (s : St) : ℕ → W128
  | 0 => s.previous
  | k + 1 => select s.startMode (block s k) (block s (k + 1))

theorem block_hold (s : St) (x : W128) (k : ℕ) : block (hold x s) k = block s k := by
  unfold block
  rw [iter_comm (f := hold x) nextState nextState (fun s => rfl) s k]
  rfl

theorem generate_hold (s : St) (hsz : 2 ≤ s.size) (hi : s.index < s.size) (x : W128) :
    generate (hold x s) = (hold (select s.startMode (block s 0) (block s 1)) (nextState s),
      merge s.weightMode (select s.startMode (block s 0) (block s 1)) x) := by
  rw [generate_eq (hold x s) hsz hi, block_hold, block_hold]
  rfl

theorem block_add (s : St) (j k : ℕ) : block (nextState^[k] s) j = block s (k + j) := by
  unfold block
  rw [← Function.iterate_add_apply, Nat.add_comm j k]

theorem state_at (s : St) (hsz : 2 ≤ s.size) (hi : s.index < s.size) (k : ℕ) :
    (fun g => (generate g).1)^[k] s = hold (shown s k) (nextState^[k] s) := by
  induction k with
  | zero => rfl
  | succ k ih =>
    obtain ⟨a1, a2, a3, a4, a5⟩ := iter_nextState s hsz hi k
    rw [Function.iterate_succ_apply', ih, generate_hold _ (by rw [a1]; exact hsz) (by rw [a1]; exact a2), block_add,
      block_add, Function.iterate_succ_apply', a3]
    rfl

/-- The word `j` of the window that start mode `a` shows of two consecutive blocks. -/
theorem select_word (s : St) (k a j : ℕ) (ha : a < 2) (hj : j < 2) :
    u64 (select a (block s k) (block s (k + 1))) j = word s (2 * k + offset a + j) := by
  have key : ∀ m b, b < 2 → word s (2 * m + b) = u64 (block s m) b := fun m b hb => by
    unfold word
    rw [show (2 * m + b) / 2 = m by omega, show (2 * m + b) % 2 = b by omega]
  have hc : ∀ b < 2, ∀ m, m = 2 * k + b → word s m = u64 (block s k) b := fun b hb m hm => by rw [hm, key k b hb]
  have hn : ∀ b < 2, ∀ m, m = 2 * (k + 1) + b → word s m = u64 (block s (k + 1)) b := fun b hb m hm => by
    rw [hm, key (k + 1) b hb]
  generalize block s k = y at hc ⊢
  generalize block s (k + 1) = z at hn ⊢
  interval_cases a
  · obtain ⟨e0, e1⟩ := u64_mk64 (u64 z 0) (u64 z 1)
    rw [show select (0 : ℕ) y z = mk64 (u64 z 0) (u64 z 1) from rfl]
    unfold offset
    interval_cases j
    · rw [e0, hn 0 (by omega) _ (by simp; omega)]
    · rw [e1, hn 1 (by omega) _ (by simp; omega)]
  · obtain ⟨e0, e1⟩ := u64_mk64 (u64 y 1) (u64 z 0)
    rw [show select (1 : ℕ) y z = mk64 (u64 y 1) (u64 z 0) from rfl]
    unfold offset
    interval_cases j
    · rw [e0, hc 1 (by omega) _ (by simp)]
    · rw [e1, hn 0 (by omega) _ (by simp; omega)]

theorem merge_word (r p : W128) (w j : ℕ) (h1 : 1 ≤ w) (h2 : w ≤ 2) (hj : j < 2) :
    u64 (merge w r p) j = if j < w then u64 r j else u64 p j := by
  interval_cases w
  · obtain ⟨e0, e1⟩ := u64_mk64 (u64 r 0) (u64 p 1)
    rw [show merge (1 : ℕ) r p = mk64 (u64 r 0) (u64 p 1) from rfl]
    interval_cases j <;> simp [e0, e1]
  · rw [show merge (2 : ℕ) r p = r from rfl, if_pos (by omega)]

theorem stream (s : St) (hsz : 2 ≤ s.size) (hi : s.index < s.size) (a w : ℕ) (ha : a < 2) (h1 : 1 ≤ w) (h2 : w ≤ 2)
    (hs : s.startMode = a) (hw : s.weightMode = w) (k j : ℕ) (hj : j < 2) :
    u64 (wordAt generate s k) j = if j < w then word s (2 * k + offset a + j)
      else if k = 0 then u64 s.previous j else word s (2 * (k - 1) + offset a + j) := by
  obtain ⟨a1, a2, a3, a4, a5⟩ := iter_nextState s hsz hi k
  unfold wordAt
  rw [state_at s hsz hi k, generate_hold _ (by rw [a1]; exact hsz) (by rw [a1]; exact a2), block_add, block_add]
  dsimp only
  rw [a3, a4, hs, hw, merge_word _ _ w j h1 h2 hj, select_word s (k + 0) a j ha hj]
  cases k with
  | zero => rfl
  | succ k =>
    rw [show shown s (k + 1) = select (a : ℕ) (block s k) (block s (k + 1)) by rw [← hs]; rfl, select_word s k a j ha hj]
    rfl

theorem word_frame (s : St) (a w : ℤ) (x : W128) (m : ℕ) :
    word ⟨s.mexp, s.fixedSL1, s.fixed, s.size, s.index, a, w, s.state, s.lung, s.param, s.fix1, s.fix2, s.parity1,
      s.parity2, x, s.pfx⟩ m = word s m := by
  unfold word block
  rw [iter_comm (f := fun s : St => ⟨s.mexp, s.fixedSL1, s.fixed, s.size, s.index, a, w, s.state, s.lung, s.param, s.fix1,
    s.fix2, s.parity1, s.parity2, x, s.pfx⟩) nextState nextState (fun s => rfl) s (m / 2)]

end Modes

open Modes

/-- **C114**, `setStartMode` and `setWeightMode` of dSFMTsearch.hpp, as `MTT.SFMT.modes` with two 64-bit words in place
of four of 32 bits. -/
theorem modes (s : St) (hsz : 2 ≤ s.size) (hi : s.index < s.size) (a w : ℕ) (ha : a < 2) (h1 : 1 ≤ w) (h2 : w ≤ 2) :
    setWeightMode w (setStartMode a s) = setStartMode a (setWeightMode w s) ∧
    getStartMode (setWeightMode w (setStartMode a s)) = a ∧ getWeightMode (setWeightMode w (setStartMode a s)) = w ∧
    (∀ k j, j < 2 → u64 (wordAt generate (setWeightMode w (setStartMode a s)) k) j =
      if j < w then word s (2 * k + offset a + j) else if k = 0 then 0 else word s (2 * (k - 1) + offset a + j)) ∧
    (getWeightMode s = w → ∀ k j, j < 2 → u64 (wordAt generate (setStartMode a s) k) j =
      if j < w then word s (2 * k + offset a + j)
      else if k = 0 then u64 s.previous j else word s (2 * (k - 1) + offset a + j)) := by
  refine ⟨rfl, rfl, rfl, fun k j hj => ?_, fun hw k j hj => ?_⟩
  · have h := stream (setWeightMode w (setStartMode a s)) hsz hi a w ha h1 h2 rfl rfl k j hj
    have e : ∀ m, word (setWeightMode w (setStartMode a s)) m = word s m := fun m => word_frame s a w (mk64 0 0) m
    have z : u64 (setWeightMode w (setStartMode a s)).previous j = 0 := by
      show u64 (mk64 0 0) j = 0
      rw [mk64_zero]
      interval_cases j <;> decide
    rw [h, e, e, z]
  · have h := stream (setStartMode a s) hsz hi a w ha h1 h2 rfl hw k j hj
    have e : ∀ m, word (setStartMode a s) m = word s m := fun m => word_frame s a s.weightMode s.previous m
    rw [h, e, e]
    rfl

/-- **C114**, `setParityValue` and `setFixPoint` of dSFMTsearch.hpp: `getParityValue` returns the value, the parity words
(the fixed point) are its words, and nothing else changes. -/
theorem set_parity (s : St) (v : W128) :
    getParityValue (setParityValue v s) = v ∧
    mk64 (setParityValue v s).parity1 (setParityValue v s).parity2 = v ∧
    ({ setParityValue v s with lung := s.lung, parity1 := s.parity1, parity2 := s.parity2 } : St) = s ∧
    mk64 (setFixPoint v s).fix1 (setFixPoint v s).fix2 = v ∧
    ({ setFixPoint v s with fix1 := s.fix1, fix2 := s.fix2 } : St) = s :=
  ⟨rfl, mk64_eta v, rfl, mk64_eta v, rfl⟩

theorem fold_words (f : W128 → W128) (n : ℕ) (a : ℕ → W128) (i : ℕ) :
    (List.range n).foldl (fun a i => Function.update a i (f (a i))) a i = if i < n then f (a i) else a i := by
  induction n with
  | zero => rfl
  | succ n ih =>
    rw [List.range_succ, List.foldl_append, List.foldl_cons, List.foldl_nil]
    by_cases h : i = n
    · subst h
      rw [Function.update_self, ih, if_neg (by omega), if_pos (by omega)]
    · rw [Function.update_of_ne h, ih]
      simp only [show i < n + 1 ↔ i < n by omega]

/-- **C114**, `setPrefix` of dSFMTsearch.hpp: it does not touch the words by itself; the next `setup_prefix` gives all of
them the prefix in the upper 12 bits and keeps the lower 52, for every prefix without lower bits. -/
theorem set_prefix (s : St) (p : BitVec 64) (hp : p &&& 0x000fffffffffffff = 0) (i j : ℕ) (hi : i < s.size)
    (hj : j < 2) :
    (setPrefix p s).state i = s.state i ∧
    u64 ((setupPrefix (setPrefix p s)).state i) j = p ||| (u64 (s.state i) j &&& 0x000fffffffffffff) ∧
    ({ setPrefix p s with pfx := s.pfx } : St) = s := by
  refine ⟨rfl, ?_, rfl⟩
  unfold setupPrefix setPrefix
  dsimp only
  have hu : ∀ a b : BitVec 64, u64 (mk64 a b) j = if j = 0 then a else b := fun a b => by
    interval_cases j
    · exact (u64_mk64 a b).1
    · exact (u64_mk64 a b).2
  have hw : ∀ y : BitVec 64 → BitVec 64, ∀ x : W128,
      (if j = 0 then y (u64 x 0) else y (u64 x 1)) = y (u64 x j) := fun y x => by
    interval_cases j <;> rfl
  by_cases h : p = 0
  · subst h
    rw [if_neg (by simp), fold_words (fun x => mk64 (u64 x 0 &&& 0x000fffffffffffff) (u64 x 1 &&& 0x000fffffffffffff)),
      if_pos hi, hu, hw (fun y => y &&& 0x000fffffffffffff)]
    simp
  · rw [if_pos h, fold_words (fun x => mk64 (u64 x 0 ||| p) (u64 x 1 ||| p)), if_pos hi, hu,
      hw (fun y => y ||| p), fold_words (fun x => mk64 (u64 x 0 &&& 0x000fffffffffffff) (u64 x 1 &&& 0x000fffffffffffff)),
      if_pos hi, hu, hw (fun y => y &&& 0x000fffffffffffff), BitVec.or_comm]

/-- **C114**, `setFixed` and `setFixedSL1` of dSFMTsearch.hpp, in either order: `setUpParam` chooses the given shift
whatever numbers it gets; after `setFixed(false)` it draws a shift from 1 to 51. -/
theorem set_fixed (s t : St) (x : ℕ) (r : ℕ → BitVec 64) :
    (∀ b, setFixed b (setFixedSL1 x s) = setFixedSL1 x (setFixed b s)) ∧
    (setUpParam r (setFixed true (setFixedSL1 x s)) = some t → t.param.sl1 = x) ∧
    (setUpParam r (setFixed false s) = some t → 1 ≤ t.param.sl1 ∧ t.param.sl1 ≤ 51) ∧
    (s.size ≠ 2 → setUpParam r s ≠ none) := by
  refine ⟨fun _ => rfl, fun h => ?_, fun h => ?_, fun h => ?_⟩
  · unfold setUpParam at h
    split at h
    · cases h
    · cases h
      rfl
  · unfold setUpParam at h
    split at h
    · cases h
    · cases h
      show 1 ≤ ((r 1) % (52 - 1) + 1).toNat ∧ ((r 1) % (52 - 1) + 1).toNat ≤ 51
      have h1 : ((r 1) % (52 - 1) + 1 : BitVec 64).toNat = (r 1).toNat % 51 + 1 := by
        rw [BitVec.toNat_add, BitVec.toNat_umod, show ((52 - 1 : BitVec 64)).toNat = 51 from rfl,
          show ((1 : BitVec 64)).toNat = 1 from rfl]
        have := Nat.mod_lt (r 1).toNat (show 0 < 51 by norm_num)
        omega
      rw [h1]
      have := Nat.mod_lt (r 1).toNat (show 0 < 51 by norm_num)
      omega
  · unfold setUpParam
    rw [if_neg h]
    exact Option.some_ne_none _

/-- The object that the program `dSFMTdc -f x` (dSFMTdc.cpp) starts from is made by these calls. -/
theorem start_setters (mexp x : ℕ) (junk : ℕ → W128) :
    start mexp junk (some x) = setFixedSL1 x (setFixed true (ctor mexp junk)) := rfl

/-- **C114**, `set_reverse_bit` of dSFMTsearch.hpp has no effect: the object is the same, so `generate(v)` shows the
leading bits also after it. -/
theorem reverse_ignored (s : St) (v k : ℕ) (h2 : v ≤ 128) :
    setReverse s = s ∧ ShowsMsb v (wordAt (generateV v) (setReverse s) k) (wordAt generate s k) := by
  refine ⟨rfl, fun c hc => ?_⟩
  have h : ∀ s, generateV v (id s) = (id (generate s).1, (generate s).2 &&& ((~~~ (0 : BitVec 128)) <<< (128 - v))) :=
    fun s => by
      rw [← SFMT.Modes.maskV _ h2]
      rfl
  show (wordAt (generateV v) (id s) k).getMsbD c = _
  rw [wordV_comm (F := fun x => x &&& ((~~~ (0 : BitVec 128)) <<< (128 - v))) h s k, mask_msb _ h2 c hc]

end DSFMT

/-! ## Instances -/

/-- The hypotheses of `SFMT.modes` are met by the object of SFMT19937 after seeding, and the modes matter: the words shown
by start mode 1 and weight mode 3 are words 1, 2 and 3 of the block that the object holds and, in the last place, 0. -/
example : ∀ s : SFMT.St, s = SFMT.seed 0x1234567890abcdef (SFMT.ctorPar 19937 ⟨122, 18, 1, 11, 1, 0xdfffffef, 0xddfecb7f,
      0xbffaffff, 0xbffffff6⟩ 1 0 0 0x13c9e684) →
    (2 ≤ s.size ∧ s.index < s.size) ∧
    ∀ j < 3, W128.u (Setters.wordAt SFMT.generate (SFMT.setWeightMode 3 (SFMT.setStartMode 1 s)) 0) j =
      W128.u (s.state 0) (j + 1) := by
  rintro s hs
  have h1 : s.size = 156 := by rw [hs]; rfl
  have h2 : s.index = 0 := by rw [hs]; rfl
  refine ⟨by omega, fun j hj => ?_⟩
  have h := (SFMT.modes s (by omega) (by omega) 1 3 (by norm_num) (by norm_num) (by norm_num)).2.2.2.1 0 j (by omega)
  rw [if_pos hj] at h
  refine h.trans ?_
  show W128.u (SFMT.Modes.block s ((4 * 0 + 1 + j) / 4)) ((4 * 0 + 1 + j) % 4) = _
  rw [show (4 * 0 + 1 + j) / 4 = 0 by omega, show (4 * 0 + 1 + j) % 4 = j + 1 by omega]
  show W128.u (s.state s.index) (j + 1) = _
  rw [h2]

/-- The prefix of the numbers from 1 to 2 has no lower bits. -/
example : (0x3ff0000000000000 : BitVec 64) &&& 0x000fffffffffffff = 0 := by decide

/-- `setUpParam` does deliver objects after the setters: dSFMT19937 with the shift 19. -/
example : ∃ t, DSFMT.setUpParam (fun i => BitVec.ofNat 64 (i * 77777)) (DSFMT.setFixed true (DSFMT.setFixedSL1 19
    (DSFMT.ctor 19937 (fun _ => 0)))) = some t ∧ t.param.sl1 = 19 := ⟨_, rfl, rfl⟩

/-- The reversed output differs from the plain one: the first word of TinyMT. -/
example : Setters.wordAt (TinyMT.generateV 1) (TinyMT.setReverse ⟨1, 0, 0, 0, 0, 0, 0, 0, false⟩) 1 ≠
    Setters.wordAt (TinyMT.generateV 1) (TinyMT.resetReverse ⟨1, 0, 0, 0, 0, 0, 0, 0, false⟩) 1 := by
  decide +kernel

end MTT
