import Verif.Lmac.ViterbiLemmas
/-! # C16: the decoders return a most likely message -/
namespace Verif.Viterbi
open Verif.ConvEnc

/-! ## Specification -/

/-- Number of received bits (erasures not counted) which differ from a candidate transmission. -/
def mismatches : List (Option Bool) → List Bool → Nat
  | some r :: rs, b :: bs => (if r = b then 0 else 1) + mismatches rs bs
  | none :: rs, _ :: bs => mismatches rs bs
  | _, _ => 0

/-- What the encoder sends for a message, starting from the zero state. -/
def sent (taps : Enc → Bool → List Bool) (msg : List Bool) : List Bool := (encodeLoop taps Enc.zero msg).1

/-- The message returns the encoder to the zero state. -/
def Terminated (taps : Enc → Bool → List Bool) (msg : List Bool) : Prop := (encodeLoop taps Enc.zero msg).2 = Enc.zero

/-- `x` is a most likely terminated message of `n` bits for what was received. -/
def MostLikely (taps : Enc → Bool → List Bool) (n : Nat) (rx : List (Option Bool)) (x : List Bool) : Prop :=
  x.length = n ∧ Terminated taps x ∧
    ∀ y, y.length = n → Terminated taps y → mismatches rx (sent taps x) ≤ mismatches rx (sent taps y)

/-! ## Relation between the encoder and the trellis -/

/-- Trellis number of an encoder state. -/
def st (s : Enc) : Nat := s.d0.toNat * 8 + s.d1.toNat * 4 + s.d2.toNat * 2 + s.d3.toNat

theorem st_shift (s : Enc) (b : Bool) : st (s.shift b) = next (st s) b := by
  obtain ⟨a, b', c, d⟩ := s
  cases a <;> cases b' <;> cases c <;> cases d <;> cases b <;> rfl

theorem st_inj {s t : Enc} (h : st s = st t) : s = t := by
  obtain ⟨a, b, c, d⟩ := s
  obtain ⟨a', b', c', d'⟩ := t
  revert h
  cases a <;> cases b <;> cases c <;> cases d <;> cases a' <;> cases b' <;> cases c' <;> cases d' <;> decide

/-- Output of one polynomial. -/
def polyOut (s : Enc) (b : Bool) (p : Poly) : Bool :=
  (b && p.p0) ^^ (s.d0 && p.p1) ^^ (s.d1 && p.p2) ^^ (s.d2 && p.p3) ^^ (s.d3 && p.p4)

theorem cch_taps (s : Enc) (b : Bool) : cchTaps s b = cchPolys.map (polyOut s b) := by
  simp [cchTaps, cchPolys, polyOut]

theorem speech_taps (s : Enc) (b : Bool) : speechTaps s b = speechPolys.map (polyOut s b) := by
  simp [speechTaps, speechPolys, polyOut]

theorem next_bits (s : Enc) (b : Bool) : (next (st s) b).testBit 3 = b ∧ (next (st s) b).testBit 2 = s.d0 ∧
    (next (st s) b).testBit 1 = s.d1 ∧ (next (st s) b).testBit 0 = s.d2 ∧ (st s % 2 = 0 ↔ s.d3 = false) := by
  obtain ⟨a, b', c, d⟩ := s
  cases a <;> cases b' <;> cases c <;> cases d <;> cases b <;> decide

/-- A soft value agrees (+1), disagrees (-1) or says nothing (0). -/
def sym (r : Option Bool) (o : Bool) : Int :=
  match r with
  | none => 0
  | some r => if r = o then -1 else 1

theorem expected0_out (s : Enc) (b : Bool) (p : Poly) (h : p.p4 = true) (r : Option Bool) :
    (if st s % 2 = 0 then -(soft r * expected0 p (next (st s) b)) else soft r * expected0 p (next (st s) b)) = sym r (polyOut s b p) := by
  obtain ⟨h3, h2, h1, h0, hl⟩ := next_bits s b
  unfold expected0 polyOut
  rw [h3, h2, h1, h0, h]
  by_cases hd : st s % 2 = 0
  · rw [if_pos hd, hl.1 hd]
    generalize ((b && p.p0) ^^ (s.d0 && p.p1) ^^ (s.d1 && p.p2) ^^ (s.d2 && p.p3)) = x
    rcases r with _ | (_ | _) <;> cases x <;> rfl
  · have : s.d3 = true := by
      cases hh : s.d3
      · exact absurd (hl.2 hh) hd
      · rfl
    rw [if_neg hd, this]
    generalize ((b && p.p0) ^^ (s.d0 && p.p1) ^^ (s.d1 && p.p2) ^^ (s.d2 && p.p3)) = x
    rcases r with _ | (_ | _) <;> cases x <;> rfl

/-- Number of received bits which are not erased. -/
def known (rx : List (Option Bool)) : Nat := rx.countP Option.isSome

/-- The metric of an edge counts its mismatches. -/
theorem edge_eq (polys : List Poly) (hp : ∀ p ∈ polys, p.p4 = true) (s : Enc) (b : Bool) (c : List (Option Bool))
    (hc : c.length = polys.length) :
    edge polys (c.map soft) (st s) b = 2 * (mismatches c (polys.map (polyOut s b)) : Int) - known c := by
  induction polys generalizing c with
  | nil =>
    have : c = [] := by simpa using hc
    subst this
    simp [edge, bsum, mismatches, known]
  | cons p ps ih =>
    cases c with
    | nil => simp at hc
    | cons r c =>
      have ih := ih (fun q hq => hp q (by simp [hq])) c (by simpa using hc)
      have h1 := expected0_out s b p (hp p (by simp)) r
      have e : edge (p :: ps) ((r :: c).map soft) (st s) b = sym r (polyOut s b p) + edge ps (c.map soft) (st s) b := by
        rw [← h1]
        unfold edge
        simp only [List.map_cons, bsum]
        split <;> omega
      rw [e, ih]
      simp only [List.map_cons, known, List.countP_cons]
      rcases r with _ | r
      · simp [mismatches, sym]
      · simp only [mismatches, sym, Option.isSome_some, if_true]
        split <;> simp <;> omega

theorem mismatches_append (a b : List (Option Bool)) (x y : List Bool) (h : a.length = x.length) :
    mismatches (a ++ b) (x ++ y) = mismatches a x + mismatches b y := by
  induction a generalizing x with
  | nil =>
    have : x = [] := by simpa using h.symm
    subst this
    simp [mismatches]
  | cons r a ih =>
    cases x with
    | nil => simp at h
    | cons o x =>
      have := ih x (by simpa using h)
      rcases r with _ | r
      · simpa [mismatches] using this
      · simp only [List.cons_append, mismatches]; omega

theorem chunksExact_cons (N n : Nat) (hN : 0 < N) (l : List Int) (h : l.length = N * (n + 1)) :
    chunksExact N l = l.take N :: chunksExact N (l.drop N) := by
  unfold chunksExact
  have h1 : l.length / N = n + 1 := by rw [h]; exact Nat.mul_div_cancel_left _ hN
  have h2 : (l.drop N).length / N = n := by
    rw [List.length_drop, h, Nat.mul_add, Nat.mul_one, Nat.add_sub_cancel]; exact Nat.mul_div_cancel_left _ hN
  rw [h1, h2, List.range_succ_eq_map]
  simp only [List.map_cons, Nat.zero_mul, List.drop_zero, List.map_map]
  congr 1
  apply List.map_congr_left
  intro i _
  simp only [Function.comp, Nat.succ_eq_add_one, List.drop_drop]
  rw [show (i + 1) * N = N + i * N by rw [Nat.add_mul, Nat.one_mul, Nat.add_comm]]

theorem cost_eq (polys : List Poly) (hN : 0 < polys.length) (hp : ∀ p ∈ polys, p.p4 = true) (taps : Enc → Bool → List Bool)
    (ht : ∀ s b, taps s b = polys.map (polyOut s b)) (s : Enc) (x : List Bool) (rx : List (Option Bool))
    (h : rx.length = polys.length * x.length) :
    cost polys (st s) x (chunksExact polys.length (rx.map soft)) = 2 * (mismatches rx (encodeLoop taps s x).1 : Int) - known rx := by
  induction x generalizing s rx with
  | nil =>
    have : rx = [] := by simpa using h
    subst this
    simp [cost, mismatches, known]
  | cons b x ih =>
    rw [chunksExact_cons polys.length x.length hN (rx.map soft) (by simpa using h)]
    simp only [cost, encodeLoop]
    have hl : (rx.take polys.length).length = polys.length := by
      rw [List.length_take, h, List.length_cons, Nat.mul_add, Nat.mul_one]; omega
    have e1 := edge_eq polys hp s b (rx.take polys.length) hl
    have e2 := ih (s.shift b) (rx.drop polys.length) (by
      rw [List.length_drop, h, List.length_cons, Nat.mul_add, Nat.mul_one]; omega)
    rw [← List.map_take, ← List.map_drop, e1, ← st_shift, e2]
    have e3 := mismatches_append (rx.take polys.length) (rx.drop polys.length) (polys.map (polyOut s b))
      (encodeLoop taps (s.shift b) x).1 (by simpa using hl)
    rw [List.take_append_drop] at e3
    have e4 : known rx = known (rx.take polys.length) + known (rx.drop polys.length) := by
      unfold known; rw [← List.countP_append, List.take_append_drop]
    rw [ht, e3, e4]
    omega

theorem final_eq (taps : Enc → Bool → List Bool) (s : Enc) (x : List Bool) : final (st s) x = st (encodeLoop taps s x).2 := by
  induction x generalizing s with
  | nil => rfl
  | cons b x ih => simp only [final, encodeLoop]; rw [← st_shift, ih]

theorem length_chunksExact (N : Nat) (l : List Int) : (chunksExact N l).length = l.length / N := by simp [chunksExact]

theorem small_chunks (N : Nat) (rx : List (Option Bool)) : ∀ c ∈ chunksExact N (rx.map soft), Small c := by
  intro c hc r hr
  simp only [chunksExact, List.mem_map] at hc
  obtain ⟨i, _, rfl⟩ := hc
  have := List.mem_of_mem_drop (List.mem_of_mem_take hr)
  simp only [List.mem_map] at this
  obtain ⟨o, _, rfl⟩ := this
  rcases o with _ | (_ | _) <;> decide

/-- The generic statement: any code whose polynomials all tap the oldest bit. -/
theorem decode_mostLikely (polys : List Poly) (hN : 0 < polys.length) (hN' : polys.length ≤ 1000) (hp : ∀ p ∈ polys, p.p4 = true)
    (taps : Enc → Bool → List Bool) (ht : ∀ s b, taps s b = polys.map (polyOut s b)) (n : Nat) (rx : List (Option Bool))
    (h : rx.length = polys.length * n) (hb : polys.length * n ≤ 8000) :
    MostLikely taps n rx (decode polys (rx.map soft)) := by
  have hcl : (chunksExact polys.length (rx.map soft)).length = n := by
    rw [length_chunksExact, List.length_map, h]; exact Nat.mul_div_cancel_left _ hN
  have key := decode_chunks polys _ (small_chunks polys.length rx) hN' (by rw [hcl]; exact hb)
  rw [hcl] at key
  obtain ⟨k1, k2, k3⟩ := key
  have zero : st Enc.zero = 0 := rfl
  have tm : ∀ y, Terminated taps y ↔ final 0 y = 0 := by
    intro y
    unfold Terminated
    rw [← zero, final_eq taps]
    exact ⟨fun h => by rw [h], fun h => st_inj h⟩
  refine ⟨k1, (tm _).2 k2, ?_⟩
  intro y hy hty
  have := k3 y hy ((tm y).1 hty)
  have c1 := cost_eq polys hN hp taps ht Enc.zero _ rx (by rw [h, k1])
  have c2 := cost_eq polys hN hp taps ht Enc.zero y rx (by rw [h, hy])
  rw [zero] at c1 c2
  rw [c1, c2] at this
  unfold sent decode
  omega

/-! ## Properties -/

/-- **C16, control channels.** For every received block of up to 864 symbols, with any mixture of right, wrong and erased bits,
the decoder returns a terminated message no other terminated message fits better. The metrics never overflow. -/
theorem c16_control_most_likely (n : Nat) (hn : n ≤ 864) (rx : List (Option Bool)) (h : 4 * n ≤ rx.length) (out : List Bool)
    (ho : n ≤ out.length) :
    ∃ x, decSb1 rx out n = .ok (x ++ out.drop n) ∧ MostLikely cchTaps n (rx.take (4 * n)) x := by
  have key := decode_mostLikely cchPolys (by decide) (by decide) (by decide) cchTaps cch_taps n (rx.take (4 * n))
    (by rw [List.length_take, Nat.min_eq_left h]; rfl) (by simp only [cchPolys, List.length_cons, List.length_nil]; omega)
  refine ⟨_, ?_, key⟩
  have hx : (decode cchPolys ((rx.take (4 * n)).map soft)).take n = decode cchPolys ((rx.take (4 * n)).map soft) :=
    List.take_of_length_le (by rw [key.1]; omega)
  unfold decSb1
  rw [Nat.mul_comm n 4]
  simp only [hn, h, ho, ge_iff_le, decide_true, Res.assert_true, Res.bind_ok, hx, key.1, Nat.le_refl, Res.pure_eq]

/-- **C16, speech.** Same for the rate-1/3 decoder of the speech channel. -/
theorem c16_speech_most_likely (n : Nat) (hn : n ≤ 2000) (rx : List (Option Bool)) (h : rx.length = 3 * n) :
    MostLikely speechTaps n rx (decode speechPolys (rx.map soft)) :=
  decode_mostLikely speechPolys (by decide) (by decide) (by decide) speechTaps speech_taps n rx (by simpa [speechPolys] using h)
    (by simp only [speechPolys, List.length_cons, List.length_nil]; omega)

/-- A terminated message of at least four bits ends in four zero tail bits, and conversely. -/
theorem c16_terminated_iff (taps : Enc → Bool → List Bool) (m tail : List Bool) (h : tail.length = 4) :
    Terminated taps (m ++ tail) ↔ tail = [false, false, false, false] := by
  have key : ∀ (m : List Bool) (s : Enc), (encodeLoop taps s (m ++ tail)).2 = (encodeLoop taps ((encodeLoop taps s m).2) tail).2 := by
    intro m
    induction m with
    | nil => intro s; rfl
    | cons b m ih => intro s; simp only [List.cons_append, encodeLoop]; exact ih _
  unfold Terminated
  rw [key]
  generalize (encodeLoop taps Enc.zero m).2 = s
  match tail, h with
  | [a, b, c, d], _ =>
    simp only [encodeLoop, Enc.shift, Enc.zero, Enc.mk.injEq, List.cons.injEq, and_true]
    constructor <;> rintro ⟨h1, h2, h3, h4⟩ <;> exact ⟨h4, h3, h2, h1⟩

/-- Non-vacuity: five steps with an erasure and one wrong bit; the sent message comes back. -/
example : mismatches [some true, some true, none, some true] [true, false, false, true] = 1 ∧
    decode cchPolys (([some true, some true, some true, some true, some true, some true, some true, some false] ++
      [none, some true, some true, some false, some false, some true, some false, some true, some true, some true, some true, some true]).map soft)
      = [true, false, false, false, false] := by decide +kernel

end Verif.Viterbi
