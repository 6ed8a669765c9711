import Mathlib.Data.List.Induction
import Verif.Core.TdmaProps
import Verif.Dsp.EyeDecide

/-!
Bits sent by the modulator are the bits the demodulator reads, for every sequence of slots of bits.
-/
namespace Verif.Dsp

open Verif Finset

/-! ## Specification -/

/-- A list of samples as a signal: zero before and after. -/
def signal (xs : List (Cx ℚ)) (n : ℤ) : Cx ℚ := if 0 ≤ n then xs.getD n.toNat Cx.zero else Cx.zero

/-- The calls of the modulator for consecutive samples from the beginning of slot number `t0` on (16 samples early, which is the
delay of the filter), each with the slot the sample belongs to. -/
def slotCalls (t0 : ℕ) (slots : List (List Bool)) : List (Int × Tdma.Time × Option (List Bool)) :=
  (List.range (1020 * slots.length)).map fun i : ℕ =>
    (1020 * (t0 : Int) - 16 + i, Tdma.fromInt ((t0 + i / 1020 : ℕ) : Int), some (slots.getD (i / 1020) []))

/-! ## History -/

/-- The buffer after the values `past` have been written, the latest first. -/
structure History.Holds {α : Type} (h : History α) (init : α) (past : List α) : Prop where
  pos : h.index < h.buffer.length
  at_ : ∀ j < h.buffer.length, h.buffer[(h.index + h.buffer.length - j) % h.buffer.length]? = some (past.getD j init)

theorem History.new_holds {α : Type} (n : Nat) (init : α) (hn : 0 < n) : (History.new n init).Holds init [] := by
  constructor
  · simpa [History.new] using hn
  · intro j hj
    simp only [History.new, List.length_replicate] at hj ⊢
    rw [List.getElem?_replicate, if_pos (Nat.mod_lt _ hn)]
    simp

theorem History.write_holds {α : Type} {h : History α} {init : α} {past : List α} (hh : h.Holds init past) (x : α) :
    (h.write x).Holds init (x :: past) ∧ (h.write x).buffer.length = h.buffer.length := by
  obtain ⟨pos, at_⟩ := hh
  have hlen : (h.write x).buffer.length = h.buffer.length := by simp [History.write]
  have hi : (h.write x).index = (h.index + 1) % h.buffer.length := rfl
  have hb : (h.write x).buffer = h.buffer.set ((h.index + 1) % h.buffer.length) x := rfl
  have hlt : (h.index + 1) % h.buffer.length < h.buffer.length := Nat.mod_lt _ (by omega)
  refine ⟨⟨by rw [hi, hlen]; exact hlt, ?_⟩, hlen⟩
  rw [hlen, hi, hb]
  generalize hN : h.buffer.length = N at *
  intro j hj
  rw [List.getElem?_set]
  cases j with
  | zero =>
    have e : ((h.index + 1) % N + N - 0) % N = (h.index + 1) % N := by
      rw [Nat.sub_zero, Nat.add_mod_right, Nat.mod_mod]
    rw [e, if_pos rfl, if_pos (by omega)]
    simp
  | succ j =>
    have e : ((h.index + 1) % N + N - (j + 1)) % N = (h.index + N - j) % N := by
      by_cases hw : h.index + 1 < N
      · rw [Nat.mod_eq_of_lt hw]; congr 1; omega
      · have : h.index + 1 = N := by omega
        rw [this, Nat.mod_self]
        have e2 : h.index + N - j = (0 + N - (j + 1)) + N := by omega
        rw [e2, Nat.add_mod_right]
    rw [e, if_neg, at_ j (by omega), List.getD_cons_succ]
    by_cases hw : h.index + 1 < N
    · rw [Nat.mod_eq_of_lt hw]
      by_cases hj0 : j ≤ h.index
      · have e2 : h.index + N - j = (h.index - j) + N := by omega
        rw [e2, Nat.add_mod_right, Nat.mod_eq_of_lt (by omega)]; omega
      · rw [Nat.mod_eq_of_lt (by omega)]; omega
    · have : h.index + 1 = N := by omega
      rw [this, Nat.mod_self]
      have e2 : h.index + N - j = (h.index - j) + N := by omega
      rw [e2, Nat.add_mod_right, Nat.mod_eq_of_lt (by omega)]; omega

theorem History.delayed_holds {α : Type} {h : History α} {init : α} {past : List α} (hh : h.Holds init past) {j : Nat}
    (hj : j < h.buffer.length) : h.delayed j = .ok (past.getD j init) := by
  simp only [History.delayed, if_pos hj, hh.at_ j hj]

/-! ## Filters -/

theorem firOut_filt (xs : List (Cx ℚ)) (n : Nat) (hn : n < xs.length) :
    firOut channelTaps (xs.take (n + 1)).reverse = filt (signal xs) n := by
  have h : ∀ k : ℕ, ((xs.take (n + 1)).reverse).getD k Cx.zero = signal xs ((n : ℤ) - k) := by
    intro k
    unfold signal
    simp only [List.getD_eq_getElem?_getD]
    split
    · rw [List.getElem?_reverse (by simp; omega)]
      have e : (xs.take (n + 1)).length - 1 - k = ((n : ℤ) - k).toNat := by simp; omega
      rw [e, List.getElem?_take_of_lt (by omega)]
    · rw [List.getElem?_eq_none (by simp; omega)]
      rfl
  have hre : ∀ k : ℕ, (((xs.take (n + 1)).reverse).map Cx.re).getD k 0 = (signal xs ((n : ℤ) - k)).re := by
    intro k
    rw [← h k, List.getD_eq_getElem?_getD, List.getD_eq_getElem?_getD, List.getElem?_map]
    cases ((xs.take (n + 1)).reverse)[k]? <;> rfl
  have him : ∀ k : ℕ, (((xs.take (n + 1)).reverse).map Cx.im).getD k 0 = (signal xs ((n : ℤ) - k)).im := by
    intro k
    rw [← h k, List.getD_eq_getElem?_getD, List.getD_eq_getElem?_getD, List.getElem?_map]
    cases ((xs.take (n + 1)).reverse)[k]? <;> rfl
  simp only [firOut, filt, impulse_length, hre, him]
  rfl

theorem filt_neg (xs : List (Cx ℚ)) (n : ℤ) (hn : n < 0) : filt (signal xs) n = Cx.zero := by
  have h : ∀ k : ℕ, signal xs (n - k) = Cx.zero := by
    intro k
    unfold signal
    rw [if_neg (by omega)]
  simp [filt, h, Cx.zero]

theorem taps16 : channelTaps.length = 4 * 4 := rfl

/-- The receiver after the samples `xs`. -/
structure Receiver.After (r : Receiver) (xs : List (Cx ℚ)) : Prop where
  filter : r.filter.After channelTaps xs.reverse
  len : r.past.buffer.length = 2048
  past : r.past.Holds Cx.zero ((List.range xs.length).reverse.map fun n : ℕ => filt (signal xs) n)

theorem Receiver.new_ok : ∃ r, Receiver.new = .ok r ∧ r.After [] := by
  obtain ⟨f, e, a⟩ := Fir.new_after taps16 (by decide)
  refine ⟨⟨f, History.new (4 * 512) Cx.zero⟩, by simp [Receiver.new, e], a, List.length_replicate, ?_⟩
  exact History.new_holds _ _ (by norm_num)

theorem signal_append (xs ys : List (Cx ℚ)) (n : ℤ) (h : n < xs.length) : signal (xs ++ ys) n = signal xs n := by
  unfold signal
  split
  · rw [List.getD_eq_getElem?_getD, List.getD_eq_getElem?_getD, List.getElem?_append_left (by omega)]
  · rfl

theorem filt_append (xs ys : List (Cx ℚ)) (n : ℤ) (h : n < xs.length) : filt (signal (xs ++ ys)) n = filt (signal xs) n := by
  unfold filt
  congr 1 <;>
  · apply sum_congr rfl
    intro k _
    rw [signal_append _ _ _ (by omega)]

theorem Receiver.sample_ok {r : Receiver} {xs : List (Cx ℚ)} (a : r.After xs) (x : Cx ℚ) :
    ∃ r', r.sample x = .ok r' ∧ r'.After (xs ++ [x]) := by
  obtain ⟨f', e, af⟩ := Fir.sample_ok taps16 a.filter x
  have hw := History.write_holds a.past (firOut channelTaps (x :: xs.reverse))
  refine ⟨⟨f', r.past.write (firOut channelTaps (x :: xs.reverse))⟩, by simp [Receiver.sample, e], ?_, ?_, ?_⟩
  · simpa using af
  · rw [← a.len]; exact hw.2
  · have e1 : firOut channelTaps (x :: xs.reverse) = filt (signal (xs ++ [x])) xs.length := by
      rw [← firOut_filt (xs ++ [x]) xs.length (by simp), List.take_of_length_le (by simp), List.reverse_append]
      rfl
    have e2 : ((List.range (xs ++ [x]).length).reverse.map fun n : ℕ => filt (signal (xs ++ [x])) n) =
        filt (signal (xs ++ [x])) xs.length :: ((List.range xs.length).reverse.map fun n : ℕ => filt (signal xs) n) := by
      rw [List.length_append, List.length_singleton, List.range_succ, List.reverse_append]
      simp only [List.reverse_singleton, List.singleton_append, List.map_cons]
      congr 1
      apply List.map_congr_left
      intro n hn
      rw [List.mem_reverse, List.mem_range] at hn
      exact filt_append _ _ _ (by omega)
    rw [e2, ← e1]
    exact hw.1

theorem Receiver.run_ok (ys : List (Cx ℚ)) : ∀ (r : Receiver) (xs : List (Cx ℚ)), r.After xs →
    ∃ r', r.run ys = .ok r' ∧ r'.After (xs ++ ys) := by
  induction ys with
  | nil => intro r xs a; exact ⟨r, rfl, by simpa using a⟩
  | cons y ys ih =>
    intro r xs a
    obtain ⟨r1, e1, a1⟩ := Receiver.sample_ok a y
    obtain ⟨r2, e2, a2⟩ := ih r1 _ a1
    exact ⟨r2, by simp only [Receiver.run, e1, Res.bind_ok, e2], by simpa using a2⟩

/-- What the history holds: the filtered signal. -/
theorem Receiver.delayed {r : Receiver} {xs : List (Cx ℚ)} (a : r.After xs) {j : Nat} (hj : j < 2048) :
    r.past.delayed j = .ok (filt (signal xs) ((xs.length : ℤ) - 1 - j)) := by
  rw [History.delayed_holds a.past (by rw [a.len]; exact hj)]
  congr 1
  rw [List.getD_eq_getElem?_getD, List.getElem?_map]
  by_cases h : j < xs.length
  · rw [List.getElem?_reverse (by simpa using h), List.length_range, List.getElem?_range (by omega)]
    simp only [Option.map_some, Option.getD_some]
    congr 1
    omega
  · rw [List.getElem?_eq_none (by simp; omega)]
    rw [filt_neg _ _ (by omega)]
    rfl

/-! ## Modulator -/

theorem getElem?_flatten (n : Nat) (slots : List (List Bool)) (h : ∀ s ∈ slots, s.length = n) (i j : Nat) (hj : j < n) :
    slots.flatten[n * i + j]? = (slots.getD i [])[j]? := by
  induction slots generalizing i with
  | nil => simp
  | cons s slots ih =>
    have hs := h s (by simp)
    cases i with
    | zero =>
      rw [Nat.mul_zero, Nat.zero_add, List.flatten_cons, List.getElem?_append_left (by omega), List.getD_cons_zero]
    | succ i =>
      rw [List.flatten_cons, List.getElem?_append_right (by rw [hs]; nlinarith), List.getD_cons_succ,
        ← ih (fun s h' => h s (List.mem_cons_of_mem _ h'))]
      congr 1
      rw [hs, Nat.mul_add]
      omega

theorem flatten_length (n : Nat) (slots : List (List Bool)) (h : ∀ s ∈ slots, s.length = n) :
    slots.flatten.length = n * slots.length := by
  induction slots with
  | nil => rfl
  | cons s slots ih =>
    rw [List.flatten_cons, List.length_append, h s (by simp), ih (fun s h' => h s (List.mem_cons_of_mem _ h')),
      List.length_cons]
    ring

/-- The phase of the carrier after symbol number `q` of the bits. -/
def phaseAt (bits : List Bool) : Nat → Int
  | 0 => 0
  | q + 1 => (phaseAt bits q + Phy.symbolStep (bits.getD (2 * q) false) (bits.getD (2 * q + 1) false)) % 8

theorem phaseAt_range (bits : List Bool) (q : Nat) : 0 ≤ phaseAt bits q ∧ phaseAt bits q < 8 := by
  cases q with
  | zero => simp [phaseAt]
  | succ q => simp only [phaseAt]; omega

/-- The signal fed to the filter when `bits` are sent. -/
def sentSignal (bits : List Bool) (n : ℤ) : Cx ℚ :=
  if 0 ≤ n ∧ n < 2 * (bits.length : ℤ) ∧ n % 4 = 0 then
    constellation.getD (phaseAt bits ((n / 4).toNat + 1)).toNat Cx.zero
  else Cx.zero

theorem toInt_fromInt (n : ℕ) (h : (n : Int) < Tdma.wrap) : (Tdma.fromInt (n : Int)).toInt = n := by
  simp only [Tdma.fromInt, Tdma.Time.toInt, Tdma.wrap] at *
  omega

theorem point_ok (p : Int) (h0 : 0 ≤ p) (h8 : p < 8) : constellation[p.toNat]? = some (constellation.getD p.toNat Cx.zero) := by
  have : p.toNat < constellation.length := by
    have : constellation.length = 8 := rfl
    omega
  rw [List.getD_eq_getElem?_getD, List.getElem?_eq_getElem this]
  rfl

/-- What the modulator feeds to its filter for sample `i` after the beginning of slot `t0`. -/
theorem input_ok {t0 : ℕ} {slots : List (List Bool)} (h : ∀ s ∈ slots, s.length = 510)
    (hw : ((t0 + slots.length : ℕ) : Int) ≤ Tdma.wrap) {i : ℕ} (hi : i < 1020 * slots.length) (m : Modulator)
    (hp : m.phase = phaseAt slots.flatten ((i + 3) / 4)) :
    m.input (1020 * (t0 : Int) - 16 + i) (Tdma.fromInt ((t0 + i / 1020 : ℕ) : Int)) (some (slots.getD (i / 1020) [])) =
      .ok (some (sentSignal slots.flatten i, phaseAt slots.flatten ((i + 1 + 3) / 4))) := by
  have hs : i / 1020 < slots.length := Nat.div_lt_of_lt_mul hi
  have hl := flatten_length 510 slots h
  have e1 : 1020 * (t0 : Int) - 16 + i + (channelTaps.length : ℕ) - (Tdma.fromInt ((t0 + i / 1020 : ℕ) : Int)).toInt * samplesSlot =
      ((i % 1020 : ℕ) : Int) := by
    have e : (channelTaps.length : ℕ) = 16 := rfl
    rw [toInt_fromInt _ (by omega), e]
    simp only [samplesSlot, sps]
    omega
  unfold Modulator.input
  simp only [e1]
  rw [if_neg (by omega), if_neg (by simp only [samplesSlot, sps]; omega)]
  by_cases h4 : i % 4 = 0
  · have e2 : (((i % 1020 : ℕ) : Int) / sps).toNat = i % 1020 / 4 := by simp only [sps]; omega
    rw [if_pos (by simp only [sps]; omega), e2]
    have hj : i % 1020 / 4 * 2 + 1 < 510 := by omega
    have f1 := getElem?_flatten 510 slots h (i / 1020) (i % 1020 / 4 * 2) (by omega)
    have f2 := getElem?_flatten 510 slots h (i / 1020) (i % 1020 / 4 * 2 + 1) hj
    have g1 : 510 * (i / 1020) + i % 1020 / 4 * 2 = 2 * (i / 4) := by omega
    have g2 : 510 * (i / 1020) + (i % 1020 / 4 * 2 + 1) = 2 * (i / 4) + 1 := by omega
    rw [g1] at f1
    rw [g2] at f2
    have b1 : bitAt (slots.getD (i / 1020) []) (i % 1020 / 4 * 2) = .ok (slots.flatten.getD (2 * (i / 4)) false) := by
      unfold bitAt
      rw [← f1, List.getElem?_eq_getElem (by omega), List.getD_eq_getElem?_getD, List.getElem?_eq_getElem (by omega)]
      rfl
    have b2 : bitAt (slots.getD (i / 1020) []) (i % 1020 / 4 * 2 + 1) = .ok (slots.flatten.getD (2 * (i / 4) + 1) false) := by
      unfold bitAt
      rw [← f2, List.getElem?_eq_getElem (by omega), List.getD_eq_getElem?_getD, List.getElem?_eq_getElem (by omega)]
      rfl
    have p1 : phaseAt slots.flatten ((i + 1 + 3) / 4) = (m.phase + Phy.symbolStep (slots.flatten.getD (2 * (i / 4)) false)
        (slots.flatten.getD (2 * (i / 4) + 1) false)) % 8 := by
      have q1 : (i + 1 + 3) / 4 = i / 4 + 1 := by omega
      have q2 : (i + 3) / 4 = i / 4 := by omega
      rw [q1, phaseAt, hp, q2]
    have pr := phaseAt_range slots.flatten ((i + 1 + 3) / 4)
    simp only [b1, b2, Res.bind_ok, dqpskSymbol]
    rw [← p1, point_ok _ pr.1 pr.2]
    have hn : (0 : ℤ) ≤ (i : ℤ) ∧ (i : ℤ) < 2 * (slots.flatten.length : ℤ) ∧ (i : ℤ) % 4 = 0 := by omega
    have q3 : (((i : ℤ) / 4).toNat + 1) = (i + 1 + 3) / 4 := by omega
    simp only [Res.bind_ok, Res.pure_eq, sentSignal, if_pos hn, q3]
  · rw [if_neg (by simp only [sps]; omega)]
    have q : (i + 3) / 4 = (i + 1 + 3) / 4 := by omega
    have hn : ¬ ((0 : ℤ) ≤ (i : ℤ) ∧ (i : ℤ) < 2 * (slots.flatten.length : ℤ) ∧ (i : ℤ) % 4 = 0) := by omega
    simp only [sentSignal, if_neg hn, hp, q]

/-- The filter after sample `i`. -/
def sentPast (bits : List Bool) (i : ℕ) : List (Cx ℚ) := (List.range i).reverse.map fun n : ℕ => sentSignal bits n

theorem sentPast_succ (bits : List Bool) (i : ℕ) : sentPast bits (i + 1) = sentSignal bits i :: sentPast bits i := by
  simp [sentPast, List.range_succ]

theorem firOut_sent (bits : List Bool) (i : ℕ) : firOut channelTaps (sentPast bits (i + 1)) = filt (sentSignal bits) i := by
  have h : ∀ k : ℕ, (sentPast bits (i + 1)).getD k Cx.zero = sentSignal bits ((i : ℤ) - k) := by
    intro k
    rw [List.getD_eq_getElem?_getD, sentPast, List.getElem?_map]
    by_cases hk : k < i + 1
    · rw [List.getElem?_reverse (by simpa using hk), List.length_range, List.getElem?_range (by omega)]
      simp only [Option.map_some, Option.getD_some]
      congr 1
      omega
    · rw [List.getElem?_eq_none (by simp; omega), sentSignal, if_neg (by omega)]
      rfl
  have hre : ∀ k : ℕ, ((sentPast bits (i + 1)).map Cx.re).getD k 0 = (sentSignal bits ((i : ℤ) - k)).re := by
    intro k
    rw [← h k, List.getD_eq_getElem?_getD, List.getD_eq_getElem?_getD, List.getElem?_map]
    cases (sentPast bits (i + 1))[k]? <;> rfl
  have him : ∀ k : ℕ, ((sentPast bits (i + 1)).map Cx.im).getD k 0 = (sentSignal bits ((i : ℤ) - k)).im := by
    intro k
    rw [← h k, List.getD_eq_getElem?_getD, List.getD_eq_getElem?_getD, List.getElem?_map]
    cases (sentPast bits (i + 1))[k]? <;> rfl
  simp only [firOut, filt, impulse_length, hre, him]
  rfl

theorem run_from {t0 : ℕ} {slots : List (List Bool)} (h : ∀ s ∈ slots, s.length = 510)
    (hw : ((t0 + slots.length : ℕ) : Int) ≤ Tdma.wrap) (n : ℕ) : ∀ (i : ℕ) (m : Modulator), i + n ≤ 1020 * slots.length →
    m.phase = phaseAt slots.flatten ((i + 3) / 4) → m.filter.After channelTaps (sentPast slots.flatten i) →
    ∃ m', m.run ((List.range' i n).map fun i : ℕ => (1020 * (t0 : Int) - 16 + i, Tdma.fromInt ((t0 + i / 1020 : ℕ) : Int),
        some (slots.getD (i / 1020) []))) =
      .ok ((List.range' i n).map fun i : ℕ => some (filt (sentSignal slots.flatten) i), m') := by
  induction n with
  | zero => intro i m _ _ _; exact ⟨m, rfl⟩
  | succ n ih =>
    intro i m hi hp ha
    have e1 := input_ok h hw (i := i) (by omega) m hp
    obtain ⟨f', e2, a2⟩ := Fir.sample_ok taps16 ha (sentSignal slots.flatten i)
    rw [← sentPast_succ] at e2 a2
    rw [firOut_sent] at e2
    obtain ⟨m', e3⟩ := ih (i + 1) ⟨f', phaseAt slots.flatten ((i + 1 + 3) / 4)⟩ (by omega) rfl a2
    refine ⟨m', ?_⟩
    rw [List.range'_succ, List.map_cons, List.map_cons]
    simp only [Modulator.run, Modulator.sample, e1, e2, e3, Res.bind_ok, Res.pure_eq]

/-- What the modulator sends for a sequence of slots. -/
theorem modulated {t0 : ℕ} {slots : List (List Bool)} (h : ∀ s ∈ slots, s.length = 510)
    (hw : ((t0 + slots.length : ℕ) : Int) ≤ Tdma.wrap) :
    ∃ m m', Modulator.new = .ok m ∧ m.run (slotCalls t0 slots) =
      .ok ((List.range (1020 * slots.length)).map fun i : ℕ => some (filt (sentSignal slots.flatten) i), m') := by
  obtain ⟨f, e, a⟩ := Fir.new_after taps16 (by decide)
  obtain ⟨m', e'⟩ := run_from h hw (1020 * slots.length) 0 ⟨f, 0⟩ (by omega) rfl a
  refine ⟨⟨f, 0⟩, m', by simp [Modulator.new, e], ?_⟩
  rw [slotCalls, List.range_eq_range']
  exact e'

/-! ## From one end to the other -/

theorem sent_impulses (bits : List Bool) (a : ℤ) (ha : a % 4 = 0) : Impulses (sentSignal bits) a := by
  constructor
  · intro n hn
    rw [sentSignal, if_neg (by omega)]
  · intro n
    unfold sentSignal
    split
    · right
      have pr := phaseAt_range bits ((n / 4).toNat + 1)
      exact List.mem_of_getElem? (point_ok _ pr.1 pr.2)
    · left; rfl

theorem filt_sent_neg (bits : List Bool) (n : ℤ) (hn : n < 0) : filt (sentSignal bits) n = Cx.zero := by
  have h : ∀ k : ℕ, sentSignal bits (n - k) = Cx.zero := by
    intro k
    rw [sentSignal, if_neg (by omega)]
  simp [filt, h, Cx.zero]

/-- The point of symbol number `q`. -/
def pointOf (bits : List Bool) (q : ℕ) : Cx ℚ := constellation.getD (phaseAt bits (q + 1)).toNat Cx.zero

theorem pointOf_eq (bits : List Bool) (q : ℕ) : constellation[(phaseAt bits (q + 1)).toNat]? = some (pointOf bits q) :=
  point_ok _ (phaseAt_range bits (q + 1)).1 (phaseAt_range bits (q + 1)).2

/-- A window of the receiver with the first symbol near the peak of symbol number `q0`. -/
structure Window (bits : List Bool) (g : Cx ℚ) (past : History (Cx ℚ)) (d first : ℕ) (f : ℚ) (q0 n : ℕ) : Prop where
  inside : ∀ k < n, ∃ z, symbolAt past d (first + 4 * k) f = .ok z ∧ Inside (g.mul (pointOf bits (q0 + k))) z

theorem decideFrom_ok {bits : List Bool} {g : Cx ℚ} {past : History (Cx ℚ)} {d first : ℕ} {f : ℚ} {q0 : ℕ}
    (hg : 0 < dot g g) (n : ℕ) : ∀ (k : ℕ) (z : Cx ℚ), Window bits g past d first f q0 (k + 1 + n) →
      Inside (g.mul (pointOf bits (q0 + k))) z → 2 * (q0 + k + 1 + n) ≤ bits.length →
      decideFrom past d first f z (k + 1) n = .ok ((bits.drop (2 * (q0 + k + 1))).take (2 * n)) := by
  induction n with
  | zero => intro k z _ _ _; simp [decideFrom]
  | succ n ih =>
    intro k z w hz hl
    obtain ⟨z', e, hz'⟩ := w.inside (k + 1) (by omega)
    have hd : decideBits z z' = [bits.getD (2 * (q0 + k + 1)) false, bits.getD (2 * (q0 + k + 1) + 1) false] := by
      have pr := phaseAt_range bits (q0 + k + 1)
      have hc := pointOf_eq bits (q0 + k)
      have hc' := pointOf_eq bits (q0 + k + 1)
      rw [phaseAt] at hc'
      refine decideBits_eq (p := (phaseAt bits (q0 + k + 1)).toNat) (by omega) hc ?_ hg hz hz'
      rw [Int.toNat_of_nonneg pr.1]
      exact hc'
    have e2 := ih (k + 1) z' (by rwa [show k + 1 + 1 + n = k + 1 + (n + 1) by omega]) hz' (by omega)
    simp only [decideFrom, e, e2, Res.bind_ok, Res.pure_eq]
    congr 1
    rw [hd, show 2 * (q0 + (k + 1) + 1) = 2 * (q0 + k + 1) + 1 + 1 by omega, show 2 * (n + 1) = 2 * n + 1 + 1 by omega]
    have h1 : 2 * (q0 + k + 1) + 1 < bits.length := by omega
    rw [List.drop_eq_getElem_cons (show 2 * (q0 + k + 1) < bits.length by omega), List.drop_eq_getElem_cons h1,
      List.take_succ_cons, List.take_succ_cons]
    simp only [List.getD_eq_getElem?_getD, List.getElem?_eq_getElem h1,
      List.getElem?_eq_getElem (show 2 * (q0 + k + 1) < bits.length by omega), Option.getD_some]
    rfl

theorem slotBits_ok {bits : List Bool} {g : Cx ℚ} {past : History (Cx ℚ)} {d first n : ℕ} {f : ℚ} {q0 : ℕ}
    (hg : 0 < dot g g) (w : Window bits g past d first f q0 n) (hl : 2 * (q0 + n) ≤ bits.length) :
    slotBits past d n first f = .ok ((bits.drop (2 * (q0 + 1))).take (2 * (n - 1))) := by
  cases n with
  | zero => simp [slotBits]
  | succ n =>
    obtain ⟨z, e, hz⟩ := w.inside 0 (by omega)
    rw [Nat.mul_zero, Nat.add_zero] at e
    simp only [slotBits, e, Res.bind_ok]
    have := decideFrom_ok hg n 0 z (by rwa [show 0 + 1 + n = n + 1 by omega]) hz (by omega)
    rw [this]
    rfl

theorem Modulator.run_length {m m' : Modulator} {calls : List (Int × Tdma.Time × Option (List Bool))}
    {ys : List (Option (Cx ℚ))} (h : m.run calls = .ok (ys, m')) : ys.length = calls.length := by
  induction calls generalizing m ys with
  | nil => cases h; rfl
  | cons c cs ih =>
    obtain ⟨a, b, d⟩ := c
    simp only [Modulator.run, Res.bind_eq_ok] at h
    obtain ⟨r, _, q, hq, h⟩ := h
    cases h
    simp [ih hq]

/-- **C83.** For every sequence of slots of 510 bits, the modulator produces a signal from which the demodulator reads the bits that
were sent: after any delay, any turn and attenuation by the air and with any noise, if the samples are taken near the peaks of the
symbols and noise and timing error are small enough. `noise` is bounded by `ε` times the gain of the air; the timing error is in
samples, four of which make a symbol. `q0` is the number of the symbol the window begins with. -/
theorem c83_reads_partial (t0 : ℕ) (slots : List (List Bool)) (h : ∀ s ∈ slots, s.length = 510)
    (hw : ((t0 + slots.length : ℕ) : Int) ≤ Tdma.wrap) :
    ∃ m m' tx, Modulator.new = .ok m ∧ m.run (slotCalls t0 slots) = .ok (tx.map some, m') ∧
      ∀ (g : Cx ℚ) (delay : ℕ) (noise : ℤ → Cx ℚ) (ε : ℚ), 0 < dot g g → 0 ≤ ε →
        (∀ n, dot (noise n) (noise n) ≤ ε ^ 2 * dot g g) →
        ∀ rx : List (Cx ℚ), rx.length ≤ 1020 * slots.length + delay →
          (∀ i : ℕ, i < rx.length → rx[i]? = some (air g delay noise (signal tx) i)) →
          ∃ r r', Receiver.new = .ok r ∧ r.run rx = .ok r' ∧
            ∀ (d n first q0 : ℕ) (f : ℚ), d < 2048 → first + 4 * n ≤ d + 3 → q0 + n ≤ 255 * slots.length → 0 ≤ f → f ≤ 1 →
              ε + |((rx.length : ℚ) - 1 - d + first + f) - (4 * q0 + delay + 31)| / 10 ≤ 57 / 1000 →
              slotBits r'.past d n first f = .ok ((slots.flatten.drop (2 * (q0 + 1))).take (2 * (n - 1))) := by
  obtain ⟨m, m', em, er⟩ := modulated h hw
  have hl := flatten_length 510 slots h
  refine ⟨m, m', (List.range (1020 * slots.length)).map fun i : ℕ => filt (sentSignal slots.flatten) i, em, ?_, ?_⟩
  · rw [er, List.map_map]; rfl
  intro g delay noise ε hg hε hn rx hlen hrx
  obtain ⟨r, e1, a1⟩ := Receiver.new_ok
  obtain ⟨r', e2, a2⟩ := Receiver.run_ok rx r [] a1
  rw [List.nil_append] at a2
  refine ⟨r, r', e1, e2, ?_⟩
  intro d n first q0 f hd hfit hq hf0 hf1 hδ
  refine slotBits_ok hg ?_ (by omega)
  constructor
  intro k hk
  -- the samples the receiver has
  have hair : ∀ i : ℤ, i < rx.length → signal rx i =
      air g delay (fun n => if 0 ≤ n then noise n else Cx.zero) (filt (sentSignal slots.flatten)) i := by
    intro i hi
    by_cases h0 : 0 ≤ i
    · obtain ⟨j, rfl⟩ := Int.eq_ofNat_of_zero_le h0
      have hj := hrx j (by omega)
      rw [signal, if_pos h0, List.getD_eq_getElem?_getD, Int.toNat_natCast, hj, Option.getD_some]
      simp only [air, if_pos h0]
      congr 2
      unfold signal
      by_cases hd : (0 : ℤ) ≤ (j : ℤ) - delay
      · rw [if_pos hd, List.getD_eq_getElem?_getD, List.getElem?_map, List.getElem?_range (by omega)]
        simp only [Option.map_some, Option.getD_some]
        congr 1
        omega
      · rw [if_neg hd, filt_sent_neg _ _ (by omega)]
    · rw [signal, if_neg h0]
      simp only [air, if_neg h0]
      rw [filt_sent_neg _ _ (by omega)]
      simp [Cx.mul, Cx.add, Cx.zero]
  have hfilt : ∀ i : ℤ, i < rx.length → filt (signal rx) i =
      filt (air g delay (fun n => if 0 ≤ n then noise n else Cx.zero) (filt (sentSignal slots.flatten))) i := by
    intro i hi
    unfold filt
    congr 1 <;>
    · apply sum_congr rfl
      intro j _
      rw [hair _ (by omega)]
      rfl
  have s0 := Receiver.delayed a2 (j := d - (first + 4 * k)) (by omega)
  have s1 := Receiver.delayed a2 (j := d - (first + 4 * k + 1)) (by omega)
  have i0 : ((rx.length : ℤ) - 1 - (d - (first + 4 * k) : ℕ)) = (rx.length : ℤ) - 1 - d + first + 4 * k := by omega
  have i1 : ((rx.length : ℤ) - 1 - (d - (first + 4 * k + 1) : ℕ)) = (rx.length : ℤ) - 1 - d + first + 4 * k + 1 := by omega
  rw [i0, hfilt _ (by omega)] at s0
  rw [i1, hfilt _ (by omega)] at s1
  refine ⟨interp (filt (air g delay (fun n => if 0 ≤ n then noise n else Cx.zero) (filt (sentSignal slots.flatten))))
    ((rx.length : ℤ) - 1 - d + first + 4 * k) f, ?_, ?_⟩
  · unfold symbolAt
    rw [if_neg (by omega), s0, s1]
    rfl
  · have hx := sent_impulses slots.flatten (4 * (q0 + k : ℕ)) (by omega)
    have ha : sentSignal slots.flatten (4 * (q0 + k : ℕ)) = pointOf slots.flatten (q0 + k) := by
      rw [sentSignal, if_pos (by omega), pointOf]
      congr 3
      omega
    have hc : pointOf slots.flatten (q0 + k) ∈ constellation := List.mem_of_getElem? (pointOf_eq _ _)
    have hn' : ∀ n : ℤ, dot (if 0 ≤ n then noise n else Cx.zero) (if 0 ≤ n then noise n else Cx.zero) ≤ ε ^ 2 * dot g g := by
      intro n
      split
      · exact hn n
      · have : dot (Cx.zero : Cx ℚ) Cx.zero = 0 := by simp [dot, Cx.zero]
        rw [this]; positivity
    have hδ' : ε + |(((rx.length : ℤ) - 1 - d + first + 4 * k : ℤ) : ℚ) + f - ((4 * (q0 + k : ℕ) : ℤ) + delay + 31 : ℤ)| / 10 ≤
        57 / 1000 := by
      refine le_trans (le_of_eq ?_) hδ
      congr 3
      push_cast
      ring
    exact ⟨in_sector (Or.inl rfl) hx ha hc hg hε hn' hf0 hf1 hδ', in_sector (Or.inr rfl) hx ha hc hg hε hn' hf0 hf1 hδ'⟩

/-- A case: two slots of any bits over a perfect link; the window of 256 symbols which ends 8 symbols before the last one sent. -/
example (a b : List Bool) (ha : a.length = 510) (hb : b.length = 510) :
    ∃ m m' tx r r', Modulator.new = .ok m ∧ m.run (slotCalls 7 [a, b]) = .ok (tx.map some, m') ∧ Receiver.new = .ok r ∧
      r.run tx = .ok r' ∧ slotBits r'.past 1024 256 0 0 = .ok (((a ++ b).drop 494).take 510) := by
  obtain ⟨m, m', tx, e1, e2, hall⟩ := c83_reads_partial 7 [a, b] (by simp [ha, hb]) (by simp [Tdma.wrap])
  have hlen : tx.length = 2040 := by
    have := Modulator.run_length e2
    simpa [slotCalls] using this
  obtain ⟨r, r', e3, e4, hr⟩ := hall ⟨1, 0⟩ 0 (fun _ => Cx.zero) 0 (by simp [dot]) le_rfl (by intro n; simp [dot, Cx.zero]) tx
    (by simp [hlen]) (by
      intro i hi
      rw [List.getElem?_eq_getElem hi]
      simp [air, signal, Cx.mul, Cx.add, Cx.zero, hi, List.getD_eq_getElem?_getD])
  refine ⟨m, m', tx, r, r', e1, e2, e3, e4, ?_⟩
  have := hr 1024 256 0 246 0 (by omega) (by omega) (by simp) le_rfl (by norm_num) (by rw [hlen]; norm_num)
  simpa using this

end Verif.Dsp
