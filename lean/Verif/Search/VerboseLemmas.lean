import Verif.Search.Verbose
import Verif.Search.RTProps
import Verif.Temper.Props
import Verif.Temper.BestBits
import Verif.Samples.NumberText

/-!
# Lemmas about `verbose`
-/

namespace MTT.Verbose

open Polynomial Text Temper Search Parity

variable {σ : Type} {w : ℕ}

theorem bestLoopV_fst (vb : Bool) (R : TemperOps σ w) (P : PBPar) (mask : BitVec w) (pos : ℕ) (v size : ℤ) :
    ∀ n (a : Acc σ w), (bestLoopV vb R P mask pos v size n a).map Prod.fst = bestLoop R P mask pos v size n a
  | 0, a => rfl
  | n + 1, a => by
    rw [bestLoopV, bestLoop]
    cases patternOf P v size n with
    | none => rfl
    | some p =>
      dsimp only
      cases R.delta P.bitLen (makeTemperBit R mask pos p a.rand) with
      | none => rfl
      | some d =>
        dsimp only
        rw [← bestLoopV_fst vb R P mask pos v size n, Option.map_map]
        by_cases h1 : d < a.minDelta
        · simp only [if_pos h1]; rfl
        · by_cases h2 : d = a.minDelta
          · by_cases h3 : R.countBit a.minPattern < R.countBit p
            · simp only [if_neg h1, if_pos h2, if_pos h3]; rfl
            · simp only [if_neg h1, if_pos h2, if_neg h3]; rfl
          · simp only [if_neg h1, if_neg h2]; rfl

theorem bestLoopV_quiet (R : TemperOps σ w) (P : PBPar) (mask : BitVec w) (pos : ℕ) (v size : ℤ) :
    ∀ n (a : Acc σ w) r, bestLoopV false R P mask pos v size n a = some r → r.2 = []
  | 0, a, r, h => by rw [bestLoopV, Option.some.injEq] at h; rw [← h]
  | n + 1, a, r, h => by
    rw [bestLoopV] at h
    cases hp : patternOf (w := w) P v size n with
    | none => rw [hp] at h; cases h
    | some p =>
      rw [hp] at h; dsimp only at h
      cases hd : R.delta P.bitLen (makeTemperBit R mask pos p a.rand) with
      | none => rw [hd] at h; cases h
      | some d =>
        rw [hd] at h; dsimp only at h
        obtain ⟨r', h1, rfl⟩ := Option.map_eq_some_iff.1 h
        have := bestLoopV_quiet R P mask pos v size n _ r' h1
        show _ ++ r'.2 = []
        rw [this, List.append_nil]
        by_cases h1 : d < a.minDelta
        · simp only [if_pos h1]; rfl
        · by_cases h2 : d = a.minDelta
          · by_cases h3 : R.countBit a.minPattern < R.countBit p
            · simp only [if_neg h1, if_pos h2, if_pos h3]; rfl
            · simp only [if_neg h1, if_pos h2, if_neg h3]
          · simp only [if_neg h1, if_neg h2]

theorem searchBestV_fst (vb : Bool) (R : TemperOps σ w) (P : PBPar) (v : ℤ) (pos : ℕ) (maxV : ℤ) (s : σ) :
    (searchBestV vb R P v pos maxV s).map Prod.fst = searchBest R P v pos maxV s := by
  unfold searchBestV searchBest
  dsimp only
  cases (makeMask P.bitLen P.lsb v (maxV - v) : Option (BitVec w)) with
  | none => rfl
  | some mask =>
    dsimp only
    by_cases h : maxV - v < 0 ∨ 31 ≤ maxV - v
    · rw [if_pos h, if_pos h]; rfl
    · rw [if_neg h, if_neg h, ← bestLoopV_fst vb]
      cases bestLoopV vb R P mask pos v (maxV - v) (2 ^ (maxV - v).toNat) ⟨s, R.bitSize * P.bitLen, 0⟩ with
      | none => rfl
      | some q => rfl

theorem searchBestV_quiet (R : TemperOps σ w) (P : PBPar) (v : ℤ) (pos : ℕ) (maxV : ℤ) (s : σ) {r : (σ × ℤ) × Out}
    (h : searchBestV false R P v pos maxV s = some r) : r.2 = [] := by
  unfold searchBestV at h
  dsimp only at h
  cases hm : (makeMask P.bitLen P.lsb v (maxV - v) : Option (BitVec w)) with
  | none => rw [hm] at h; cases h
  | some mask =>
    rw [hm] at h; dsimp only at h
    by_cases h' : maxV - v < 0 ∨ 31 ≤ maxV - v
    · rw [if_pos h'] at h; cases h
    · rw [if_neg h'] at h
      cases hb : bestLoopV false R P mask pos v (maxV - v) (2 ^ (maxV - v).toNat) ⟨s, R.bitSize * P.bitLen, 0⟩ with
      | none => rw [hb] at h; cases h
      | some q =>
        have := bestLoopV_quiet _ _ _ _ _ _ _ _ q hb
        obtain ⟨a, o⟩ := q
        rw [hb, Option.some.injEq] at h
        rw [← h]
        show o ++ [] = []
        rw [List.append_nil]; exact this

theorem paramLoopV_fst (vb : Bool) (R : TemperOps σ w) (P : PBPar) (p d : ℤ) :
    ∀ k i (q : σ × ℤ), (paramLoopV vb R P p d k i q).map Prod.fst = paramLoop R P p d k i q
  | 0, i, q => rfl
  | k + 1, i, q => by
    rw [paramLoopV, paramLoop, ← searchBestV_fst vb]
    cases searchBestV vb R P p i d q.1 with
    | none => rfl
    | some r =>
      obtain ⟨q', o⟩ := r
      show Option.map Prod.fst (Option.map _ (paramLoopV vb R P p d k (i + 1) q')) = paramLoop R P p d k (i + 1) q'
      rw [← paramLoopV_fst vb R P p d k, Option.map_map]
      rfl

theorem paramLoopV_quiet (R : TemperOps σ w) (P : PBPar) (p d : ℤ) :
    ∀ k i (q : σ × ℤ) r, paramLoopV false R P p d k i q = some r → r.2 = []
  | 0, i, q, r, h => by rw [paramLoopV, Option.some.injEq] at h; rw [← h]
  | k + 1, i, q, r, h => by
    rw [paramLoopV] at h
    cases hs : searchBestV false R P p i d q.1 with
    | none => rw [hs] at h; cases h
    | some x =>
      have h0 := searchBestV_quiet R P p i d q.1 hs
      obtain ⟨q', o⟩ := x
      rw [hs] at h
      obtain ⟨r', h1, rfl⟩ := Option.map_eq_some_iff.1 h
      show o ++ r'.2 = []
      rw [paramLoopV_quiet R P p d k _ _ r' h1, List.append_nil]; exact h0

theorem depthLoopV_fst (vb : Bool) (R : TemperOps σ w) (P : PBPar) :
    ∀ fuel p (q : σ × ℤ), (depthLoopV vb R P fuel p q).map Prod.fst = depthLoop R P fuel p q
  | 0, p, q => rfl
  | fuel + 1, p, q => by
    rw [depthLoopV, depthLoop]
    by_cases h : p < P.tryLen
    · rw [if_pos h, if_pos h]
      dsimp only
      rw [← paramLoopV_fst vb]
      cases paramLoopV vb R P p ↑(if p + P.step > P.tryLen then P.tryLen else p + P.step) P.paramNum 0 q with
      | none => rfl
      | some r =>
        obtain ⟨q', o⟩ := r
        show Option.map Prod.fst (Option.map _ (depthLoopV vb R P fuel (p + P.step) q')) = depthLoop R P fuel (p + P.step) q'
        rw [← depthLoopV_fst vb R P fuel, Option.map_map]
        rfl
    · rw [if_neg h, if_neg h]; rfl

theorem depthLoopV_quiet (R : TemperOps σ w) (P : PBPar) :
    ∀ fuel p (q : σ × ℤ) r, depthLoopV false R P fuel p q = some r → r.2 = []
  | 0, p, q, r, h => by cases h
  | fuel + 1, p, q, r, h => by
    rw [depthLoopV] at h
    by_cases hp : p < P.tryLen
    · rw [if_pos hp] at h
      dsimp only at h
      cases hs : paramLoopV false R P p ↑(if p + P.step > P.tryLen then P.tryLen else p + P.step) P.paramNum 0 q with
      | none => rw [hs] at h; cases h
      | some x =>
        have h0 := paramLoopV_quiet R P _ _ _ _ q _ hs
        obtain ⟨q', o⟩ := x
        rw [hs] at h
        obtain ⟨r', h1, rfl⟩ := Option.map_eq_some_iff.1 h
        show o ++ r'.2 = []
        rw [depthLoopV_quiet R P fuel _ _ r' h1, List.append_nil]; exact h0
    · rw [if_neg hp, Option.some.injEq] at h; rw [← h]

theorem bbLoopV_fst (vb : Bool) (R : TemperOps σ w) (B : BBPar) (v : ℕ) (para : TempP w) :
    ∀ n (s : σ) (d : ℤ) cur, (bbLoopV vb R B v para n s d cur).map Prod.fst = bbLoop R B v para n s d cur
  | 0, s, d, cur => rfl
  | n + 1, s, d, cur => by
    rw [bbLoopV, bbLoop]
    cases inRange B w n v with
    | none => rfl
    | some b =>
      cases b with
      | false => exact bbLoopV_fst vb R B v para n s d cur
      | true =>
        dsimp only
        cases makePattern B n v para.param with
        | none => rfl
        | some p =>
          dsimp only
          cases R.delta (v + 1) (setAll R p B.size 0 s) with
          | none => rfl
          | some e =>
            dsimp only
            by_cases h : e ≤ d
            · rw [if_pos h, if_pos h, ← bbLoopV_fst vb R B v para n, Option.map_map]; rfl
            · rw [if_neg h, if_neg h, ← bbLoopV_fst vb R B v para n, Option.map_map]; rfl

theorem bbLoopV_quiet (R : TemperOps σ w) (B : BBPar) (v : ℕ) (para : TempP w) :
    ∀ n (s : σ) (d : ℤ) cur r, bbLoopV false R B v para n s d cur = some r → r.2 = []
  | 0, s, d, cur, r, h => by rw [bbLoopV, Option.some.injEq] at h; rw [← h]
  | n + 1, s, d, cur, r, h => by
    rw [bbLoopV] at h
    cases hi : inRange B w n v with
    | none => rw [hi] at h; cases h
    | some b =>
      rw [hi] at h
      cases b with
      | false => exact bbLoopV_quiet R B v para n s d cur r h
      | true =>
        dsimp only at h
        cases hm : makePattern B n v para.param with
        | none => rw [hm] at h; cases h
        | some p =>
          rw [hm] at h; dsimp only at h
          cases hd : R.delta (v + 1) (setAll R p B.size 0 s) with
          | none => rw [hd] at h; cases h
          | some e =>
            rw [hd] at h; dsimp only at h
            by_cases hc : e ≤ d
            · rw [if_pos hc] at h
              obtain ⟨r', h1, rfl⟩ := Option.map_eq_some_iff.1 h
              exact bbLoopV_quiet R B v para n _ _ _ r' h1
            · rw [if_neg hc] at h
              obtain ⟨r', h1, rfl⟩ := Option.map_eq_some_iff.1 h
              exact bbLoopV_quiet R B v para n _ _ _ r' h1

theorem bbAllV_fst (vb : Bool) (R : TemperOps σ w) (B : BBPar) (v : ℕ) :
    ∀ ps (s : σ) cur, (bbAllV vb R B v ps s cur).map Prod.fst = bbAll R B v ps s cur
  | [], s, cur => rfl
  | para :: ps, s, cur => by
    rw [bbAllV, bbAll, ← bbLoopV_fst vb]
    cases bbLoopV vb R B v para (2 ^ B.numPat) s (R.bitSize * w) cur with
    | none => rfl
    | some r =>
      obtain ⟨⟨s', c'⟩, o⟩ := r
      show Option.map Prod.fst (Option.map _ (bbAllV vb R B v ps s' c')) = bbAll R B v ps s' c'
      rw [← bbAllV_fst vb R B v ps, Option.map_map]
      rfl

theorem bbAllV_quiet (R : TemperOps σ w) (B : BBPar) (v : ℕ) :
    ∀ ps (s : σ) cur r, bbAllV false R B v ps s cur = some r → r.2 = []
  | [], s, cur, r, h => by rw [bbAllV, Option.some.injEq] at h; rw [← h]
  | para :: ps, s, cur, r, h => by
    rw [bbAllV] at h
    cases hs : bbLoopV false R B v para (2 ^ B.numPat) s (R.bitSize * w) cur with
    | none => rw [hs] at h; cases h
    | some x =>
      have h0 := bbLoopV_quiet R B v para _ _ _ _ _ hs
      obtain ⟨⟨s', c'⟩, o⟩ := x
      rw [hs] at h
      obtain ⟨r', h1, rfl⟩ := Option.map_eq_some_iff.1 h
      show o ++ r'.2 = []
      rw [bbAllV_quiet R B v ps _ _ r' h1, List.append_nil]; exact h0

theorem bbBitsV_fst (vb : Bool) (R : TemperOps σ w) (B : BBPar) :
    ∀ n p (s : σ) ps d, (bbBitsV vb R B n p s ps d).map (fun r => (r.1.1, r.1.2.1)) = bbBits R B n p s ps
  | 0, p, s, ps, d => rfl
  | n + 1, p, s, ps, d => by
    rw [bbBitsV, bbBits, ← bbAllV_fst vb]
    cases bbAllV vb R B p ps s [] with
    | none => rfl
    | some r =>
      obtain ⟨⟨s', c'⟩, o⟩ := r
      show Option.map _ (Option.map _ (bbBitsV vb R B n (p + 1) s' _ _)) = bbBits R B n (p + 1) s' _
      rw [← bbBitsV_fst vb R B n, Option.map_map]
      rfl

theorem bbBitsV_quiet (R : TemperOps σ w) (B : BBPar) :
    ∀ n p (s : σ) ps d r, bbBitsV false R B n p s ps d = some r → r.2 = []
  | 0, p, s, ps, d, r, h => by rw [bbBitsV, Option.some.injEq] at h; rw [← h]
  | n + 1, p, s, ps, d, r, h => by
    rw [bbBitsV] at h
    cases hs : bbAllV false R B p ps s [] with
    | none => rw [hs] at h; cases h
    | some x =>
      have h0 := bbAllV_quiet R B _ _ _ _ _ hs
      obtain ⟨⟨s', c'⟩, o⟩ := x
      rw [hs] at h
      obtain ⟨r', h1, rfl⟩ := Option.map_eq_some_iff.1 h
      show o ++ [] ++ r'.2 = []
      rw [bbBitsV_quiet R B n _ _ _ _ r' h1, List.append_nil, List.append_nil]; exact h0

end MTT.Verbose
