import Mathlib.Algebra.BigOperators.Intervals
import Mathlib.Tactic.Ring
import Verif.Dsp.Fir

/-!
The streaming filter is convolution with the symmetric impulse response: after every sequence of samples, of any length,
each output is the weighted sum of the last `2 * half` inputs, with the taps reversed and then the taps as weights.
-/
namespace Verif.Dsp

open Verif Finset

variable {R : Type} [CommRing R]

/-! ## Specification -/

/-- The impulse response the taps of a half stand for. -/
def impulse (taps : List R) : List R := taps.reverse ++ taps

/-- The signal `x` filtered with impulse response `h`, at time `n`; before its beginning the signal is zero. -/
def convolve (h x : List R) (n : Nat) : R :=
  ∑ k ∈ range h.length, h.getD k 0 * (if k ≤ n then x.getD (n - k) 0 else 0)

/-! ## Proof -/

theorem lanes_sum (m : Nat) : ∀ (t h r : List R) (acc : R × R × R × R),
    t.length = 4 * m → h.length = 4 * m → r.length = 4 * m →
    laneSum (lanes t h r acc) = laneSum acc + ∑ k ∈ range (4 * m), (h.getD k 0 + r.getD k 0) * t.getD k 0 := by
  induction m with
  | zero =>
    intro t h r acc ht hh hr
    have : t = [] := List.length_eq_zero_iff.mp ht
    subst this
    simp [lanes]
  | succ m ih =>
    intro t h r acc ht hh hr
    match t, ht with
    | t0 :: t1 :: t2 :: t3 :: ts, ht =>
      match h, hh with
      | h0 :: h1 :: h2 :: h3 :: hs, hh =>
        match r, hr with
        | r0 :: r1 :: r2 :: r3 :: rs, hr =>
          obtain ⟨a, b, c, d⟩ := acc
          simp only [List.length_cons] at ht hh hr
          rw [lanes, ih ts hs rs _ (by omega) (by omega) (by omega)]
          have e : 4 * (m + 1) = 4 * m + 1 + 1 + 1 + 1 := by ring
          rw [e, sum_range_succ', sum_range_succ', sum_range_succ', sum_range_succ']
          simp only [List.getD_cons_zero, List.getD_cons_succ, laneSum]
          ring

theorem getD_slice (v : List R) (s l k : Nat) (hk : k < l) :
    ((v.drop s).take l).getD k 0 = v.getD (s + k) 0 := by
  simp [List.getD_eq_getElem?_getD, hk]

/-- What the buffers of one part of the signal hold when `past` are the samples so far, the latest first. -/
structure Buffers (half i : Nat) (history reversed past : List R) : Prop where
  lenH : history.length = half * 2
  lenR : reversed.length = half * 2
  newer : ∀ k < half, ∀ j, j = (i + half - 1 - k) % half →
    history.getD j 0 = past.getD k 0 ∧ history.getD (j + half) 0 = past.getD k 0
  older : ∀ k < half, ∀ j, j = (i + half - 1 - k) % half →
    reversed.getD (half - 1 - j) 0 = past.getD (k + half) 0 ∧
    reversed.getD (half - 1 - j + half) 0 = past.getD (k + half) 0

theorem getD_set (v : List R) (j k : Nat) (x : R) (hj : j < v.length) :
    (v.set j x).getD k 0 = if j = k then x else v.getD k 0 := by
  simp only [List.getD_eq_getElem?_getD, List.getElem?_set]
  by_cases h : j = k
  · subst h; simp [hj]
  · simp [h]

theorem readAt_ok (v : List R) (j : Nat) (h : j < v.length) : readAt v j = .ok (v.getD j 0) := by
  simp [readAt, h]

/-- The index of the next sample. -/
def next (half i : Nat) : Nat := if i < half - 1 then i + 1 else 0

theorem shiftIn_ok {half i : Nat} {history reversed past : List R} (x : R) (hi : i < half)
    (b : Buffers half i history reversed past) :
    ∃ h r, shiftIn half i history reversed x = .ok (h, r) ∧ Buffers half (next half i) h r (x :: past) ∧
      (∀ m < half, h.getD (i + 1 + m) 0 = (x :: past).getD (half - 1 - m) 0) ∧
      (∀ m < half, r.getD (half - 1 - i + m) 0 = (x :: past).getD (half + m) 0) := by
  obtain ⟨lenH, lenR, newer, older⟩ := b
  refine ⟨(history.set i x).set (i + half) x,
    (reversed.set (half - 1 - i) (history.getD i 0)).set (half - 1 - i + half) (history.getD i 0), ?_, ?_⟩
  · have h1 : half - 1 - i < reversed.length := by omega
    have h2 : half - 1 - i + half < reversed.length := by omega
    have h3 : i < history.length := by omega
    have h4 : i + half < history.length := by omega
    simp only [shiftIn, readAt_ok history i h3, Res.bind_ok, writeAt, h1, h2, h3, h4, List.length_set, if_true,
      Res.pure_eq]
  have hold : history.getD i 0 = past.getD (half - 1) 0 := by
    refine (newer (half - 1) (by omega) i ?_).1
    have : i + half - 1 - (half - 1) = i := by omega
    rw [this, Nat.mod_eq_of_lt hi]
  -- the index in the new state of the sample `k` before the latest
  have idx : ∀ k < half, (next half i + half - 1 - k) % half = if k ≤ i then i - k else i + half - k := by
    intro k hk
    unfold next
    split
    · split
      · have : i + 1 + half - 1 - k = (i - k) + half := by omega
        rw [this, Nat.add_mod_right, Nat.mod_eq_of_lt (by omega)]
      · rw [Nat.mod_eq_of_lt (by omega)]; omega
    · split
      · rw [Nat.mod_eq_of_lt (by omega)]; omega
      · omega
  have idxOld : ∀ k < half, (i + half - 1 - k) % half = if k < i then i - 1 - k else i + half - 1 - k := by
    intro k hk
    split
    · have : i + half - 1 - k = (i - 1 - k) + half := by omega
      rw [this, Nat.add_mod_right, Nat.mod_eq_of_lt (by omega)]
    · rw [Nat.mod_eq_of_lt (by omega)]
  have gh : ∀ j, ((history.set i x).set (i + half) x).getD j 0 =
      if i + half = j then x else if i = j then x else history.getD j 0 := by
    intro j
    rw [getD_set _ _ _ _ (by simp; omega), getD_set _ _ _ _ (by omega)]
  have gr : ∀ j, ((reversed.set (half - 1 - i) (history.getD i 0)).set (half - 1 - i + half) (history.getD i 0)).getD j 0 =
      if half - 1 - i + half = j then past.getD (half - 1) 0 else
      if half - 1 - i = j then past.getD (half - 1) 0 else reversed.getD j 0 := by
    intro j
    rw [getD_set _ _ _ _ (by simp; omega), getD_set _ _ _ _ (by omega), hold]
  have newer' : ∀ k < half, ∀ j, j = (next half i + half - 1 - k) % half →
      ((history.set i x).set (i + half) x).getD j 0 = (x :: past).getD k 0 ∧
      ((history.set i x).set (i + half) x).getD (j + half) 0 = (x :: past).getD k 0 := by
    intro k hk j hj
    rw [idx k hk] at hj
    rw [gh, gh]
    cases k with
    | zero =>
      simp only [Nat.zero_le, if_true, Nat.sub_zero] at hj
      subst hj
      simp
    | succ k =>
      have o := newer k (by omega) j (by rw [idxOld k (by omega), hj]; split <;> split <;> omega)
      have n1 : ¬ (i + half = j) := by split at hj <;> omega
      have n2 : ¬ (i = j) := by split at hj <;> omega
      have n3 : ¬ (i + half = j + half) := by omega
      have n4 : ¬ (i = j + half) := by omega
      rw [if_neg n1, if_neg n2, if_neg n3, if_neg n4, List.getD_cons_succ]
      exact o
  have older' : ∀ k < half, ∀ j, j = (next half i + half - 1 - k) % half →
      ((reversed.set (half - 1 - i) (history.getD i 0)).set (half - 1 - i + half) (history.getD i 0)).getD
        (half - 1 - j) 0 = (x :: past).getD (k + half) 0 ∧
      ((reversed.set (half - 1 - i) (history.getD i 0)).set (half - 1 - i + half) (history.getD i 0)).getD
        (half - 1 - j + half) 0 = (x :: past).getD (k + half) 0 := by
    intro k hk j hj
    rw [idx k hk] at hj
    rw [gr, gr]
    cases k with
    | zero =>
      simp only [Nat.zero_le, if_true, Nat.sub_zero] at hj
      subst hj
      have e : 0 + half = (half - 1) + 1 := by omega
      have n1 : ¬ (half - 1 - j + half = half - 1 - j) := by omega
      rw [e, List.getD_cons_succ, if_neg n1]
      simp
    | succ k =>
      have o := older k (by omega) j (by rw [idxOld k (by omega), hj]; split <;> split <;> omega)
      have n0 : j < half := by split at hj <;> omega
      have n1 : ¬ (half - 1 - i + half = half - 1 - j) := by omega
      have n2 : ¬ (half - 1 - i = half - 1 - j) := by split at hj <;> omega
      have n3 : ¬ (half - 1 - i + half = half - 1 - j + half) := by omega
      have n4 : ¬ (half - 1 - i = half - 1 - j + half) := by omega
      have e : k + 1 + half = (k + half) + 1 := by omega
      rw [if_neg n1, if_neg n2, if_neg n3, if_neg n4, e, List.getD_cons_succ]
      exact o
  refine ⟨⟨by simp [lenH], by simp [lenR], newer', older'⟩, ?_, ?_⟩
  · intro m hm
    by_cases h : i + 1 + m < half
    · refine (newer' (half - 1 - m) (by omega) (i + 1 + m) ?_).1
      rw [idx _ (by omega), if_neg (by omega)]; omega
    · have e : i + 1 + m = (i + 1 + m - half) + half := by omega
      rw [e]
      refine (newer' (half - 1 - m) (by omega) (i + 1 + m - half) ?_).2
      rw [idx _ (by omega), if_pos (by omega)]; omega
  · intro m hm
    rw [Nat.add_comm half m]
    by_cases h : m ≤ i
    · have e : half - 1 - i + m = half - 1 - (i - m) := by omega
      rw [e]
      refine (older' m hm (i - m) ?_).1
      rw [idx _ (by omega), if_pos h]
    · have e : half - 1 - i + m = half - 1 - (i + half - m) + half := by omega
      rw [e]
      refine (older' m hm (i + half - m) ?_).2
      rw [idx _ (by omega), if_neg h]

theorem getD_impulse_left (taps : List R) (k : Nat) (hk : k < taps.length) :
    (impulse taps).getD k 0 = taps.getD (taps.length - 1 - k) 0 := by
  simp only [impulse, List.getD_eq_getElem?_getD]
  rw [List.getElem?_append_left (by simpa using hk), List.getElem?_reverse hk]

theorem getD_impulse_right (taps : List R) (k : Nat) :
    (impulse taps).getD (taps.length + k) 0 = taps.getD k 0 := by
  simp only [impulse, List.getD_eq_getElem?_getD]
  rw [List.getElem?_append_right (by simp)]
  simp

theorem weigh_ok {taps history reversed past : List R} {m i : Nat} (ht : taps.length = 4 * m) (hi : i < taps.length)
    (lenH : history.length = taps.length * 2) (lenR : reversed.length = taps.length * 2)
    (hh : ∀ k < taps.length, history.getD (i + 1 + k) 0 = past.getD (taps.length - 1 - k) 0)
    (hr : ∀ k < taps.length, reversed.getD (taps.length - 1 - i + k) 0 = past.getD (taps.length + k) 0) :
    weigh taps taps.length i history reversed =
      .ok (∑ k ∈ range (impulse taps).length, (impulse taps).getD k 0 * past.getD k 0) := by
  have h1 : i + 1 + taps.length ≤ history.length := by omega
  have h2 : taps.length - 1 - i + taps.length ≤ reversed.length := by omega
  simp only [weigh, slice, h1, h2, if_true, Res.bind_ok, Res.pure_eq]
  congr 1
  rw [lanes_sum m _ _ _ _ ht (by simp; omega) (by simp; omega), ← ht]
  have hl : (impulse taps).length = taps.length + taps.length := by simp [impulse]
  rw [hl, sum_range_add]
  have l : ∑ k ∈ range taps.length, (impulse taps).getD k 0 * past.getD k 0 =
      ∑ k ∈ range taps.length, taps.getD k 0 * past.getD (taps.length - 1 - k) 0 := by
    rw [← sum_range_reflect]
    apply sum_congr rfl
    intro k hk
    rw [mem_range] at hk
    rw [getD_impulse_left _ _ (by omega)]
    congr 2
    omega
  rw [l, ← sum_add_distrib]
  have z : laneSum ((0 : R), (0 : R), (0 : R), (0 : R)) = 0 := by simp [laneSum]
  rw [z, zero_add]
  apply sum_congr rfl
  intro k hk
  rw [mem_range] at hk
  rw [getD_slice _ _ _ _ hk, getD_slice _ _ _ _ hk, hh k hk, hr k hk, getD_impulse_right]
  ring

/-- The filter after the samples `past`, the latest first. -/
structure Fir.After (taps : List R) (f : Fir R) (past : List (Cx R)) : Prop where
  half : f.half = taps.length
  i : f.i < taps.length
  re : Buffers taps.length f.i f.historyRe f.reversedRe (past.map Cx.re)
  im : Buffers taps.length f.i f.historyIm f.reversedIm (past.map Cx.im)

/-- The weighted sum of the samples `past`, the latest first. -/
def firOut (taps : List R) (past : List (Cx R)) : Cx R :=
  ⟨∑ k ∈ range (impulse taps).length, (impulse taps).getD k 0 * (past.map Cx.re).getD k 0,
    ∑ k ∈ range (impulse taps).length, (impulse taps).getD k 0 * (past.map Cx.im).getD k 0⟩

theorem Fir.sample_ok {taps : List R} {f : Fir R} {past : List (Cx R)} {m : Nat} (ht : taps.length = 4 * m)
    (a : f.After taps past) (x : Cx R) :
    ∃ f', f.sample taps x = .ok (firOut taps (x :: past), f') ∧ f'.After taps (x :: past) := by
  obtain ⟨fh, fi, fre, fim⟩ := a
  obtain ⟨hRe, rRe, e1, b1, p1, q1⟩ := shiftIn_ok x.re fi fre
  obtain ⟨hIm, rIm, e2, b2, p2, q2⟩ := shiftIn_ok x.im fi fim
  have w1 := weigh_ok ht fi b1.lenH b1.lenR p1 q1
  have w2 := weigh_ok ht fi b2.lenH b2.lenR p2 q2
  refine ⟨⟨f.half, if f.i < f.half - 1 then f.i + 1 else 0, hRe, hIm, rRe, rIm⟩, ?_, ?_⟩
  · have n1 : ¬ (taps.length ≠ f.half) := by omega
    have n2 : ¬ (f.half < 1 + f.i) := by omega
    simp only [Fir.sample]
    rw [if_neg n1, if_neg n2]
    simp only [fh, e1, e2, w1, w2, Res.bind_ok, Res.pure_eq, List.map_cons, firOut]
  · refine ⟨fh, ?_, ?_, ?_⟩
    · simp only [fh]; split <;> omega
    · simp only [fh]; exact b1
    · simp only [fh]; exact b2

theorem Fir.new_after {taps : List R} {m : Nat} (ht : taps.length = 4 * m) (h0 : 0 < taps.length) :
    ∃ f, Fir.new (R := R) taps.length = .ok f ∧ f.After taps [] := by
  refine ⟨⟨taps.length, 0, List.replicate (taps.length * 2) 0, List.replicate (taps.length * 2) 0,
    List.replicate (taps.length * 2) 0, List.replicate (taps.length * 2) 0⟩, ?_, ?_⟩
  · unfold Fir.new
    rw [if_pos (by rw [ht]; simp [vecLen])]
  · have z : ∀ j, (List.replicate (taps.length * 2) (0 : R)).getD j 0 = 0 := by
      intro j
      simp only [List.getD_eq_getElem?_getD, List.getElem?_replicate]
      split <;> rfl
    have b : Buffers taps.length 0 (List.replicate (taps.length * 2) (0 : R)) (List.replicate (taps.length * 2) 0) [] :=
      ⟨List.length_replicate, List.length_replicate, fun k _ j _ => ⟨by rw [z]; rfl, by rw [z]; rfl⟩,
        fun k _ j _ => ⟨by rw [z]; rfl, by rw [z]; rfl⟩⟩
    exact ⟨rfl, h0, b, b⟩

theorem convolve_past (h x : List R) (n : Nat) (hn : n < x.length) :
    convolve h x n = ∑ k ∈ range h.length, h.getD k 0 * ((x.take (n + 1)).reverse).getD k 0 := by
  apply sum_congr rfl
  intro k _
  congr 1
  simp only [List.getD_eq_getElem?_getD]
  split
  · rw [List.getElem?_reverse (by simp; omega)]
    have e : (x.take (n + 1)).length - 1 - k = n - k := by simp; omega
    rw [e, List.getElem?_take_of_lt (by omega)]
  · rw [List.getElem?_eq_none (by simp; omega)]
    rfl

theorem Fir.run_ok {taps : List R} {m : Nat} (ht : taps.length = 4 * m) (xs : List (Cx R)) :
    ∀ (f : Fir R) (past : List (Cx R)), f.After taps past →
      ∃ ys f', f.run taps xs = .ok (ys, f') ∧ f'.After taps (xs.reverse ++ past) ∧ ys.length = xs.length ∧
        ∀ n < xs.length, ys[n]? = some (firOut taps ((xs.take (n + 1)).reverse ++ past)) := by
  induction xs with
  | nil => intro f past a; exact ⟨[], f, rfl, by simpa using a, rfl, by simp⟩
  | cons x xs ih =>
    intro f past a
    obtain ⟨f1, e1, a1⟩ := Fir.sample_ok ht a x
    obtain ⟨ys, f2, e2, a2, l2, g2⟩ := ih f1 _ a1
    refine ⟨firOut taps (x :: past) :: ys, f2, by simp only [Fir.run, e1, e2, Res.bind_ok, Res.pure_eq], by simpa using a2, by simp [l2], ?_⟩
    intro n hn
    cases n with
    | zero => rfl
    | succ n =>
      have e : ((x :: xs).take (n + 1 + 1)).reverse ++ past = (xs.take (n + 1)).reverse ++ (x :: past) := by simp
      rw [List.getElem?_cons_succ, g2 n (by simpa using hn), e]

/-- **C82.** The filter computes the convolution of the signal with the symmetric impulse response, for taps of every
length it can be built with, after every sequence of samples of any length; it never aborts. -/
theorem c82_convolution (taps : List R) (h0 : taps ≠ []) (h4 : taps.length % 4 = 0) (xs : List (Cx R)) :
    ∃ f ys f', Fir.new taps.length = .ok f ∧ f.run taps xs = .ok (ys, f') ∧ ys.length = xs.length ∧
      ∀ n < xs.length, ys[n]? = some
        ⟨convolve (impulse taps) (xs.map Cx.re) n, convolve (impulse taps) (xs.map Cx.im) n⟩ := by
  have ht : taps.length = 4 * (taps.length / 4) := by omega
  obtain ⟨f, ef, af⟩ := Fir.new_after ht (List.length_pos_of_ne_nil h0)
  obtain ⟨ys, f', er, _, l, g⟩ := Fir.run_ok ht xs f [] af
  refine ⟨f, ys, f', ef, er, l, ?_⟩
  intro n hn
  rw [g n hn, convolve_past _ _ _ (by simpa using hn), convolve_past _ _ _ (by simpa using hn)]
  simp [List.map_reverse, List.map_take, firOut]

/-- A case: the response to one impulse is the impulse response, the last tap of the code first. -/
example : (do
    let f ← Fir.new (R := ℤ) 4
    let r ← f.run [4, 3, 2, 1] (⟨1, 0⟩ :: List.replicate 8 ⟨0, 0⟩)
    return r.1.map Cx.re) = (.ok [1, 2, 3, 4, 4, 3, 2, 1, 0] : Res (List ℤ)) := by decide +kernel

end Verif.Dsp
