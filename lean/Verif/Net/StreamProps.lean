import Verif.Net.Stream
/-!
# C79: messages over TCP and QUIC streams arrive whole, however the network cuts the stream

The property: whatever the sizes of the pieces in which the network delivers the stream, and whenever it is polled, the receiver hands over
exactly the messages sent, in order.

What is written determines the messages (`c79_unique`). The property is false of the receiver: `c79_exact_partial` says that the messages
arrive whole exactly if no poll found a part of a message; otherwise something is lost, for good, since the receiver does not keep the
part it has read and goes on in the middle of a message. It may then hand over messages nobody sent (`c79_invented`). A message above the
limit of 1 MiB is not skipped but read as messages (`c79_large`).
-/
namespace Verif.Net.Stream

/-! ## Specification -/

/-- The stream of a list of messages. -/
def stream (ms : List (List Nat)) : List Nat := ms.flatMap frame

/-- What the network has delivered. -/
def arrivals : List Ev → List Nat
  | [] => []
  | .arrive bs :: es => bs ++ arrivals es
  | _ :: es => arrivals es

/-- A receiver as it should be: the messages handed over and still to come, and how many bytes of those have arrived. -/
structure Ideal where
  done : List (List Nat)
  todo : List (List Nat)
  avail : Nat
  deriving DecidableEq, Repr

/-- Hand over all messages which are there. -/
def Ideal.all : List (List Nat) → Nat → List (List Nat) → Ideal
  | done, a, [] => ⟨done, [], a⟩
  | done, a, m :: ms => if 4 + m.length ≤ a then Ideal.all (done ++ [m]) (a - (4 + m.length)) ms else ⟨done, m :: ms, a⟩

/-- Hand over one. -/
def Ideal.one (i : Ideal) : Ideal :=
  match i.todo with
  | m :: ms => if 4 + m.length ≤ i.avail then ⟨i.done ++ [m], ms, i.avail - (4 + m.length)⟩ else i
  | [] => i

def Ideal.step (i : Ideal) : Ev → Ideal
  | .arrive bs => { i with avail := i.avail + bs.length }
  | .poll => Ideal.all i.done i.avail i.todo
  | .wait => i.one

/-- Whether a poll finds a part of a message: after the messages which are there, some bytes remain; for one message, it is not there but
some of its bytes are. -/
def Ideal.cutBy (i : Ideal) : Ev → Bool
  | .arrive _ => false
  | .poll => (Ideal.all i.done i.avail i.todo).avail != 0
  | .wait => i.one == i && i.avail != 0

def Ideal.cut : Ideal → List Ev → Bool
  | _, [] => false
  | i, e :: es => i.cutBy e || Ideal.cut (i.step e) es

def Ideal.run (i : Ideal) (evs : List Ev) : Ideal := evs.foldl Ideal.step i

/-! ## Frames -/

theorem fromBe_be32 {n : Nat} (h : n < 2 ^ 32) : fromBe (be32 n) = n := by
  simp only [be32, fromBe]; omega

theorem length_be32 (n : Nat) : (be32 n).length = 4 := rfl

theorem length_frame (p : List Nat) : (frame p).length = 4 + p.length := by simp [frame, length_be32]

theorem stream_cons (m : List Nat) (ms : List (List Nat)) : stream (m :: ms) = frame m ++ stream ms := rfl

/-- **C79, what is written** determines the messages. -/
theorem c79_unique {ms ns : List (List Nat)} (hm : ∀ m ∈ ms, m.length < 2 ^ 32) (hn : ∀ m ∈ ns, m.length < 2 ^ 32)
    (h : stream ms = stream ns) : ms = ns := by
  induction ms generalizing ns with
  | nil =>
    cases ns with
    | nil => rfl
    | cons n ns =>
      have := congrArg List.length h
      simp [stream, length_frame] at this
      omega
  | cons m ms ih =>
    cases ns with
    | nil =>
      have := congrArg List.length h
      simp [stream, length_frame] at this
    | cons n ns =>
      have hm1 := hm m List.mem_cons_self
      have hn1 := hn n List.mem_cons_self
      simp only [stream_cons, frame, List.append_assoc] at h
      have h1 := List.append_inj h rfl
      have h2 : m.length = n.length := by
        have := congrArg fromBe h1.1
        rw [Nat.mod_eq_of_lt hm1, Nat.mod_eq_of_lt hn1, fromBe_be32 hm1, fromBe_be32 hn1] at this
        exact this
      have h3 := List.append_inj h1.2 h2
      rw [h3.1, ih (fun x hx => hm x (List.mem_cons_of_mem _ hx)) (fun x hx => hn x (List.mem_cons_of_mem _ hx)) h3.2]

/-! ## Receiving what was sent -/

/-- The first message of a stream, if it is there. -/
theorem take_frame {m : List Nat} {buf fut rest : List Nat} (hm : m.length ≤ limit) (h : buf ++ fut = frame m ++ rest)
    (hl : 4 ≤ buf.length) : fromBe (buf.take 4) = m.length ∧
      (4 + m.length ≤ buf.length → (buf.drop 4).take m.length = m ∧ (buf.drop 4).drop m.length ++ fut = rest) := by
  have hlt : m.length < 2 ^ 32 := by simp only [limit] at hm; omega
  have h4 : buf.take 4 = be32 m.length := by
    have := congrArg (List.take 4) h
    rw [List.take_append_of_le_length hl, frame, List.append_assoc,
      List.take_append_of_le_length (by simp [length_be32]), Nat.mod_eq_of_lt hlt] at this
    rw [this]; rfl
  refine ⟨by rw [h4, fromBe_be32 hlt], ?_⟩
  intro hb
  have hd : buf.drop 4 ++ fut = m ++ rest := by
    have := congrArg (List.drop 4) h
    rw [List.drop_append_of_le_length hl, frame, List.append_assoc, List.drop_append_of_le_length (by simp [length_be32])] at this
    rw [this]; rfl
  have hl2 : m.length ≤ (buf.drop 4).length := by simp; omega
  constructor
  · have := congrArg (List.take m.length) hd
    rw [List.take_append_of_le_length hl2, List.take_append_of_le_length (Nat.le_refl _), List.take_length] at this
    exact this
  · have := congrArg (List.drop m.length) hd
    rw [List.drop_append_of_le_length hl2, List.drop_append_of_le_length (Nat.le_refl _), List.drop_length, List.nil_append] at this
    exact this

theorem recv_stream (ms : List (List Nat)) : ∀ (buf fut : List Nat) (done : List (List Nat)), (∀ m ∈ ms, m.length ≤ limit) →
    buf ++ fut = stream ms →
    (recv buf).2 = [] ∧ (Ideal.all done buf.length ms).done = done ++ (recv buf).1 ∧
    ((Ideal.all done buf.length ms).avail = 0 → fut = stream (Ideal.all done buf.length ms).todo) := by
  induction ms with
  | nil =>
    intro buf fut done _ h
    have : buf = [] ∧ fut = [] := by simpa [stream] using h
    obtain ⟨rfl, rfl⟩ := this
    rw [recv]
    simp [Ideal.all, stream]
  | cons m ms ih =>
    intro buf fut done hm h
    have hm1 := hm m List.mem_cons_self
    rw [stream_cons] at h
    rw [recv]
    by_cases hl : buf.length < 4
    · rw [dif_pos hl]
      simp only [Ideal.all]
      rw [if_neg (by omega)]
      refine ⟨trivial, by simp, ?_⟩
      intro h0
      have : buf = [] := List.length_eq_zero_iff.1 h0
      subst this
      exact h
    · rw [dif_neg hl]
      obtain ⟨t1, t2⟩ := take_frame hm1 h (by omega)
      simp only [t1, Ideal.all]
      rw [if_neg (by omega)]
      by_cases hb : 4 + m.length ≤ buf.length
      · obtain ⟨t3, t4⟩ := t2 hb
        rw [if_neg (by simp; omega), if_pos hb, t3]
        have := ih _ fut (done ++ [m]) (fun x hx => hm x (List.mem_cons_of_mem _ hx)) t4
        rw [show ((buf.drop 4).drop m.length).length = buf.length - (4 + m.length) by simp only [List.length_drop]; omega] at this
        refine ⟨this.1, ?_, this.2.2⟩
        rw [this.2.1]; simp
      · rw [if_pos (by simp; omega), if_neg hb]
        refine ⟨rfl, by simp, ?_⟩
        intro h0
        simp only at h0; omega

theorem recvOne_stream {i : Ideal} {buf fut : List Nat} (hm : ∀ m ∈ i.todo, m.length ≤ limit) (ha : i.avail = buf.length)
    (h : buf ++ fut = stream i.todo) :
    i.one.done = i.done ++ (recvOne buf).1.toList ∧
    (i.cutBy .wait = false → (recvOne buf).2 ++ fut = stream i.one.todo ∧ i.one.avail = (recvOne buf).2.length) ∧
    (i.cutBy .wait = true → (recvOne buf) = (none, [])) := by
  obtain ⟨done, todo, avail⟩ := i
  simp only at hm ha h
  subst ha
  cases todo with
  | nil =>
    have : buf = [] ∧ fut = [] := by simpa [stream] using h
    obtain ⟨rfl, rfl⟩ := this
    simp [Ideal.one, recvOne, Ideal.cutBy, stream]
  | cons m ms =>
    have hm1 := hm m List.mem_cons_self
    rw [stream_cons] at h
    by_cases hb : 4 + m.length ≤ buf.length
    · obtain ⟨t1, t2⟩ := take_frame hm1 h (by omega)
      obtain ⟨t3, t4⟩ := t2 hb
      have he : recvOne buf = (some m, (buf.drop 4).drop m.length) := by
        unfold recvOne
        rw [if_neg (by omega)]
        simp only [t1]
        rw [if_neg (by omega), if_neg (by simp; omega), t3]
      have ho : Ideal.one ⟨done, m :: ms, buf.length⟩ = ⟨done ++ [m], ms, buf.length - (4 + m.length)⟩ := by simp [Ideal.one, hb]
      rw [ho, he]
      refine ⟨rfl, fun _ => ⟨t4, by simp only [List.length_drop]; omega⟩, ?_⟩
      simp only [Ideal.cutBy, ho]
      simp
    · have ho : Ideal.one ⟨done, m :: ms, buf.length⟩ = ⟨done, m :: ms, buf.length⟩ := by simp [Ideal.one, hb]
      have he : recvOne buf = (none, []) := by
        unfold recvOne
        split
        · rfl
        · rename_i hl
          obtain ⟨t1, t2⟩ := take_frame hm1 h (by omega)
          simp only [t1]
          rw [if_neg (by omega), if_pos (by simp; omega)]
      rw [ho, he]
      refine ⟨by simp, ?_, fun _ => rfl⟩
      simp only [Ideal.cutBy, ho]
      intro h0
      have : buf.length = 0 := by simpa using h0
      have : buf = [] := List.length_eq_zero_iff.1 this
      subst this
      simpa [stream_cons] using h

theorem all_todo {ms : List (List Nat)} {m : List Nat} : ∀ {done a}, m ∈ (Ideal.all done a ms).todo → m ∈ ms := by
  induction ms with
  | nil => intro done a h; simp [Ideal.all] at h
  | cons n ms ih =>
    intro done a h
    simp only [Ideal.all] at h
    split at h
    · exact List.mem_cons_of_mem _ (ih h)
    · exact h

theorem one_todo {i : Ideal} {m : List Nat} (h : m ∈ i.one.todo) : m ∈ i.todo := by
  unfold Ideal.one at h
  split at h
  · rename_i n ns he
    split at h
    · rw [he]; exact List.mem_cons_of_mem _ h
    · exact h
  · exact h

theorem run_kept (evs : List Ev) : ∀ (i : Ideal) (r : Rx) (fut : List Nat), (∀ m ∈ i.todo, m.length ≤ limit) → i.avail = r.buf.length →
    i.done = r.got → r.buf ++ (arrivals evs ++ fut) = stream i.todo → i.cut evs = false →
    (r.run evs).got = (i.run evs).done ∧ (r.run evs).buf ++ fut = stream (i.run evs).todo ∧
      (i.run evs).avail = (r.run evs).buf.length := by
  induction evs with
  | nil => intro i r fut hm ha hd h _; exact ⟨hd.symm, by simpa [arrivals, Rx.run, Ideal.run] using h, ha⟩
  | cons e es ih =>
    intro i r fut hm ha hd h hc
    simp only [Ideal.cut, Bool.or_eq_false_iff] at hc
    obtain ⟨hc1, hc2⟩ := hc
    cases e with
    | arrive bs =>
      exact ih (i.step (.arrive bs)) (r.step (.arrive bs)) fut hm (by simp [Ideal.step, Rx.step, ha]) hd
        (by simpa [Rx.step, arrivals, Ideal.step] using h) hc2
    | poll =>
      have hs := recv_stream i.todo r.buf (arrivals es ++ fut) i.done hm (by simpa [arrivals] using h)
      rw [← ha] at hs
      obtain ⟨s1, s2, s3⟩ := hs
      have h0 : (Ideal.all i.done i.avail i.todo).avail = 0 := by simpa [Ideal.cutBy] using hc1
      exact ih (i.step .poll) (r.step .poll) fut (fun m hx => hm m (all_todo hx))
        (by simp only [Ideal.step, Rx.step, h0, s1]; rfl) (by simp only [Ideal.step, Rx.step, s2, ← hd])
        (by simp only [Ideal.step, Rx.step, s1, List.nil_append]; exact s3 h0) hc2
    | wait =>
      obtain ⟨s1, s2, _⟩ := recvOne_stream hm ha (fut := arrivals es ++ fut) (by simpa [arrivals] using h)
      obtain ⟨s3, s4⟩ := s2 hc1
      exact ih (i.step .wait) (r.step .wait) fut (fun m hx => hm m (one_todo hx))
        (by simp only [Ideal.step, Rx.step, s4]) (by simp only [Ideal.step, Rx.step, s1, ← hd])
        (by simp only [Ideal.step, Rx.step]; exact s3) hc2

/-! ## What is lost is lost -/

def size (ms : List (List Nat)) : Nat := (stream ms).length

theorem size_cons (m : List Nat) (ms : List (List Nat)) : size (m :: ms) = 4 + m.length + size ms := by
  simp [size, stream_cons, length_frame]

theorem size_append (ms ns : List (List Nat)) : size (ms ++ ns) = size ms + size ns := by simp [size, stream]

theorem recv_size (n : Nat) : ∀ buf : List Nat, buf.length = n → size (recv buf).1 + (recv buf).2.length ≤ buf.length := by
  induction n using Nat.strongRecOn with
  | ind n ih =>
    intro buf hn
    rw [recv]
    by_cases hl : buf.length < 4
    · rw [dif_pos hl]; simp [size, stream]
    · rw [dif_neg hl]
      simp only
      split
      · simp [size, stream]
      · split
        · simp [size, stream]
        · rename_i h1 h2
          have := ih _ (by simp only [List.length_drop]; omega) ((buf.drop 4).drop (fromBe (buf.take 4))) rfl
          simp only [size_cons, List.length_take, List.length_drop] at this h2 ⊢
          omega

theorem recvOne_size (buf : List Nat) : size (recvOne buf).1.toList + (recvOne buf).2.length ≤ buf.length := by
  unfold recvOne
  split
  · simp [size, stream]
  · simp only
    split
    · simp [size, stream]
    · split
      · simp [size, stream]
      · rename_i h1 h2
        simp only [Option.toList, size_cons, List.length_take, List.length_drop] at h2 ⊢
        simp [size, stream]; omega

theorem step_size (r : Rx) (e : Ev) : size (r.step e).got + (r.step e).buf.length ≤ size r.got + r.buf.length + (arrivals [e]).length := by
  cases e with
  | arrive bs => simp [Rx.step, arrivals]; omega
  | poll => have := recv_size _ r.buf rfl; simp only [Rx.step, arrivals, size_append, List.length_nil]; omega
  | wait => have := recvOne_size r.buf; simp only [Rx.step, arrivals, size_append, List.length_nil]; omega

theorem arrivals_cons (e : Ev) (es : List Ev) : arrivals (e :: es) = arrivals [e] ++ arrivals es := by
  cases e <;> simp [arrivals]

theorem run_size (evs : List Ev) : ∀ r : Rx,
    size (r.run evs).got + (r.run evs).buf.length ≤ size r.got + r.buf.length + (arrivals evs).length := by
  induction evs with
  | nil => intro r; simp [Rx.run, arrivals]
  | cons e es ih =>
    intro r
    have h1 := ih (r.step e)
    have h2 := step_size r e
    rw [arrivals_cons, List.length_append]
    show size ((r.step e).run es).got + ((r.step e).run es).buf.length ≤ _
    omega

theorem all_avail (ms : List (List Nat)) : ∀ (done : List (List Nat)) (a : Nat),
    size (Ideal.all done a ms).done + (Ideal.all done a ms).avail = size done + a := by
  induction ms with
  | nil => intro done a; rfl
  | cons m ms ih =>
    intro done a
    simp only [Ideal.all]
    split
    · rw [ih, size_append, size_cons]; simp [size, stream]; omega
    · rfl

theorem run_lost (evs : List Ev) : ∀ (i : Ideal) (r : Rx) (fut : List Nat), (∀ m ∈ i.todo, m.length ≤ limit) → i.avail = r.buf.length →
    i.done = r.got → r.buf ++ (arrivals evs ++ fut) = stream i.todo → i.cut evs = true →
    size (r.run evs).got + (r.run evs).buf.length < size r.got + r.buf.length + (arrivals evs).length := by
  induction evs with
  | nil => intro i r fut hm ha hd h hc; simp [Ideal.cut] at hc
  | cons e es ih =>
    intro i r fut hm ha hd h hc
    show size ((r.step e).run es).got + ((r.step e).run es).buf.length < _
    rw [arrivals_cons, List.length_append]
    have hsz := step_size r e
    by_cases hc1 : i.cutBy e = true
    · have hr := run_size es (r.step e)
      cases e with
      | arrive bs => simp [Ideal.cutBy] at hc1
      | poll =>
        have hs := recv_stream i.todo r.buf (arrivals es ++ fut) i.done hm (by simpa [arrivals] using h)
        rw [← ha] at hs
        obtain ⟨s1, s2, s3⟩ := hs
        have h0 : (Ideal.all i.done i.avail i.todo).avail ≠ 0 := by simpa [Ideal.cutBy] using hc1
        have h3 := all_avail i.todo i.done i.avail
        rw [hd] at h0 s2 h3
        rw [s2] at h3
        simp only [Rx.step, s1, List.length_nil, arrivals] at hr ⊢
        omega
      | wait =>
        obtain ⟨s1, _, s3⟩ := recvOne_stream hm ha (fut := arrivals es ++ fut) (by simpa [arrivals] using h)
        have h4 := s3 hc1
        have h0 : i.avail ≠ 0 := by
          simp only [Ideal.cutBy, Bool.and_eq_true] at hc1; simpa using hc1.2
        simp only [Rx.step, h4, Option.toList, List.append_nil, List.length_nil, arrivals] at hr ⊢
        omega
    · have hc1 : i.cutBy e = false := by simpa using hc1
      have hc2 : (i.step e).cut es = true := by simpa [Ideal.cut, hc1] using hc
      have hk := run_kept [e] i r (arrivals es ++ fut) hm ha hd
        (by rw [arrivals_cons, List.append_assoc] at h; exact h) (by simp [Ideal.cut, hc1])
      obtain ⟨k1, k2, k3⟩ := hk
      have hm' : ∀ m ∈ (i.step e).todo, m.length ≤ limit := by
        intro m hx
        cases e with
        | arrive bs => exact hm m hx
        | poll => exact hm m (all_todo hx)
        | wait => exact hm m (one_todo hx)
      have := ih (i.step e) (r.step e) fut hm' k3 k1.symm k2 hc2
      omega

/-- **C79, exactly.** Messages of at most 1 MiB are sent, the network delivers the stream in any pieces, and it is received at any times,
at last when all has arrived. The messages handed over are the messages sent if and only if no receive found a part of a message. -/
theorem c79_exact_partial (ms : List (List Nat)) (hm : ∀ m ∈ ms, m.length ≤ 1048576) (evs : List Ev) (ha : arrivals evs = stream ms) :
    (Rx.run ⟨[], []⟩ (evs ++ [.poll])).got = ms ↔ Ideal.cut ⟨[], ms, 0⟩ evs = false := by
  have hm : ∀ m ∈ ms, m.length ≤ limit := hm
  have harr : arrivals (evs ++ [.poll]) = stream ms := by
    rw [← ha]
    clear ha
    induction evs with
    | nil => rfl
    | cons e es ih => cases e <;> simp [arrivals, ih]
  constructor
  · intro hg
    by_cases hc : Ideal.cut ⟨[], ms, 0⟩ evs = true
    · have hl := run_lost evs ⟨[], ms, 0⟩ ⟨[], []⟩ [] hm rfl rfl (by simpa using ha) hc
      have h2 := step_size (Rx.run ⟨[], []⟩ evs) .poll
      have h3 : Rx.run ⟨[], []⟩ (evs ++ [.poll]) = (Rx.run ⟨[], []⟩ evs).step .poll := by simp [Rx.run]
      rw [← h3, hg] at h2
      simp only [arrivals, List.length_nil] at h2 hl
      rw [ha] at hl
      simp only [size] at h2 hl
      simp [stream] at h2 hl
      omega
    · simpa using hc
  · intro hc
    obtain ⟨k1, k2, k3⟩ := run_kept evs ⟨[], ms, 0⟩ ⟨[], []⟩ [] hm rfl rfl (by simpa using ha) hc
    have h3 : Rx.run ⟨[], []⟩ (evs ++ [.poll]) = (Rx.run ⟨[], []⟩ evs).step .poll := by simp [Rx.run]
    rw [h3]
    simp only [List.append_nil] at k2
    have hinv : ∀ (evs : List Ev) (i : Ideal), (i.run evs).done ++ (i.run evs).todo = i.done ++ i.todo := by
      intro evs
      induction evs with
      | nil => intro i; rfl
      | cons e es ih =>
        intro i
        show ((i.step e).run es).done ++ ((i.step e).run es).todo = _
        rw [ih]
        cases e with
        | arrive bs => rfl
        | poll =>
          have : ∀ (ms : List (List Nat)) (done : List (List Nat)) (a : Nat),
              (Ideal.all done a ms).done ++ (Ideal.all done a ms).todo = done ++ ms := by
            intro ms
            induction ms with
            | nil => intro done a; rfl
            | cons m ms ih =>
              intro done a
              simp only [Ideal.all]
              split
              · rw [ih]; simp
              · rfl
          exact this ..
        | wait =>
          simp only [Ideal.step, Ideal.one]
          split
          · rename_i m ms he
            split
            · simp [he]
            · rfl
          · rfl
    have hall := hinv evs ⟨[], ms, 0⟩
    simp only [List.nil_append] at hall
    generalize (Ideal.run ⟨[], ms, 0⟩ evs) = j at *
    have hmj : ∀ m ∈ j.todo, m.length ≤ limit := fun m hx => hm m (by rw [← hall]; exact List.mem_append_right _ hx)
    generalize (Rx.run ⟨[], []⟩ evs) = r at *
    have hs := recv_stream j.todo r.buf [] j.done hmj (by simpa using k2)
    have hfull : ∀ (ms : List (List Nat)) (done : List (List Nat)), (Ideal.all done (size ms) ms).done = done ++ ms := by
      intro ms
      induction ms with
      | nil => intro done; simp [Ideal.all]
      | cons m ms ih =>
        intro done
        simp only [Ideal.all, size_cons]
        rw [if_pos (by omega), Nat.add_sub_cancel_left, ih]; simp
    have hb : r.buf.length = size j.todo := by rw [k2]; rfl
    rw [hb, hfull] at hs
    simp only [Rx.step]
    rw [← List.append_cancel_left hs.2.1, k1, hall]

/-! ## Witnesses -/

/-- A stream received at the right moments. -/
example : Ideal.cut ⟨[], [[1, 2], [3], []], 0⟩
      [.arrive [0, 0], .arrive [0, 2, 1, 2], .wait, .arrive [0, 0, 0, 1, 3], .arrive [0, 0, 0, 0], .wait, .wait, .wait] = false ∧
    arrivals [.arrive [0, 0], .arrive [0, 2, 1, 2], .wait, .arrive [0, 0, 0, 1, 3], .arrive [0, 0, 0, 0], .wait, .wait, .wait] =
      stream [[1, 2], [3], []] := by decide

/-- **C79 is false**: one message is sent, the receiver is polled when its length has arrived but not yet the rest, and another message,
which nobody sent, is handed over in its place. -/
theorem c79_invented :
    arrivals [.arrive [0, 0, 0, 5], .poll, .arrive [0, 0, 0, 1, 7]] = stream [[0, 0, 0, 1, 7]] ∧
    (Rx.run ⟨[], []⟩ ([.arrive [0, 0, 0, 5], .poll, .arrive [0, 0, 0, 1, 7]] ++ [.poll])).got = [[7]] := by
  refine ⟨by decide, ?_⟩
  simp [Rx.run, Rx.step, recv, fromBe, limit]

theorem recv_zeros (n : Nat) : recv (List.replicate (4 * n) 0) = (List.replicate n [], []) := by
  induction n with
  | zero => rw [recv]; rfl
  | succ n ih =>
    rw [show 4 * (n + 1) = 4 * n + 1 + 1 + 1 + 1 by omega, recv]
    simp only [List.replicate_succ, List.length_cons, List.length_replicate]
    rw [dif_neg (by omega)]
    simp [fromBe, ih]

/-- **C79 above the limit**: a message of more than 1 MiB which is all zero is received as empty messages by the second poll. -/
theorem c79_large (n : Nat) (h1 : 1048576 < 4 * n) (h2 : 4 * n < 2 ^ 32) :
    (Rx.run ⟨[], []⟩ [.arrive (stream [List.replicate (4 * n) 0]), .poll, .poll]).got = List.replicate n [] := by
  have h : recv (stream [List.replicate (4 * n) 0]) = ([], List.replicate (4 * n) 0) := by
    have hs : stream [List.replicate (4 * n) 0] = be32 (4 * n) ++ List.replicate (4 * n) 0 := by
      simp only [stream, List.flatMap_cons, List.flatMap_nil, List.append_nil, frame, List.length_replicate]
      rw [Nat.mod_eq_of_lt h2]
    have ht : ∀ l : List Nat, (be32 (4 * n) ++ l).take 4 = be32 (4 * n) := fun l => rfl
    have hd : ∀ l : List Nat, (be32 (4 * n) ++ l).drop 4 = l := fun l => rfl
    rw [recv, hs, dif_neg (by simp [length_be32]), ht, hd, fromBe_be32 h2]
    simp only [show limit < 4 * n from h1, if_true]
  simp only [Rx.run, List.foldl_cons, List.foldl_nil, Rx.step, List.nil_append]
  rw [h]
  simp only [recv_zeros, List.nil_append]

example : 1048576 < 4 * 262145 ∧ 4 * 262145 < 2 ^ 32 := by decide

end Verif.Net.Stream
