import Verif.Net.ReceiverProps
/-!
# C104 — Without a file of passwords nobody is refused for its name
-/
namespace Verif.Net.Receiver
open Verif.Net.Digest (Str)

/-- `format!("anonymous{}", id)` (bins/bluestation-telemetry/src/main.rs:309-310), with the value the counter had. -/
def anonymous (id : Nat) : Str := "anonymous".toList ++ Nat.toDigits 10 id

/-! ## Specification -/

/-- The names of the requests. -/
def names (evs : List Ev) : List Str := evs.filterMap fun | .named n => some n | _ => none

/-- What a receiver without a file of passwords goes through: each request takes its own number from the counter (`fetch_add`,
main.rs:309; less than 2^64 requests). The threads may come to the set of names in another order than to the counter. -/
def Anonymous (evs : List Ev) : Prop := ∃ ids : List Nat, ids.Nodup ∧ names evs = ids.map anonymous

/-! ## Proofs -/

theorem anonymous_inj {a b : Nat} (h : anonymous a = anonymous b) : a = b := by
  have h := List.append_cancel_left h
  have e := congrArg (fun l => Nat.ofDigitChars 10 l 0) h
  simpa [Nat.ofDigitChars_toDigits] using e

/-- Every name there is is one of these. -/
def Recv.Within (s : Recv) (l : List Str) : Prop := (∀ i c, s.conns i = some c → c.name ∈ l) ∧ ∀ n ∈ s.connected, n ∈ l

theorem within_put {s : Recv} {l : List Str} (h : s.Within l) (i : Nat) {c : Conn} (hc : c.name ∈ l) : (s.put i c).Within l := by
  refine ⟨fun j d hd => ?_, h.2⟩
  by_cases hj : j = i
  · subst hj
    simp only [Recv.put, if_true, Option.some.injEq] at hd
    exact hd ▸ hc
  · simp only [Recv.put, if_neg hj] at hd
    exact h.1 j d hd

theorem within_free {s : Recv} {l : List Str} (h : s.Within l) (n : Str) : (s.free n).Within l :=
  ⟨h.1, fun m hm => h.2 m (List.mem_filter.1 hm).1⟩

theorem within_step {s : Recv} {l : List Str} (h : s.Within l) (e : Ev) (he : ∀ n, e = .named n → n ∈ l) : (s.step e).Within l := by
  cases e with
  | named n =>
    have hn := he n rfl
    simp only [Recv.step]
    split
    · exact within_put h s.next (c := ⟨n, .over⟩) hn
    · have hp := within_put h s.next (c := ⟨n, .checking⟩) hn
      refine ⟨hp.1, fun m hm => ?_⟩
      rcases List.mem_cons.1 hm with rfl | hm
      · exact hn
      · exact h.2 m hm
  | offered i g =>
    simp only [Recv.step]
    split
    · rename_i n hc
      have := h.1 i _ hc
      split
      · exact within_put h i this
      · exact within_put (within_free h n) i this
    · exact h
  | answered i w =>
    simp only [Recv.step]
    split
    · rename_i n hc
      have := h.1 i _ hc
      split
      · exact within_put h i this
      · exact within_put (within_free h n) i this
    · rename_i n hc
      exact within_put (within_free h n) i (c := ⟨n, .over⟩) (h.1 i _ hc :)
    · exact h
  | closed i =>
    simp only [Recv.step]
    split
    · rename_i n hc
      exact within_put (within_free h n) i (c := ⟨n, .over⟩) (h.1 i _ hc :)
    · exact h

theorem mem_names {evs : List Ev} {n : Str} : n ∈ names evs ↔ Ev.named n ∈ evs := by
  simp only [names, List.mem_filterMap]
  constructor
  · rintro ⟨e, he, h⟩
    cases e <;> simp at h
    subst h; exact he
  · intro h; exact ⟨_, h, rfl⟩

theorem within_run (evs : List Ev) : (Recv.start.run evs).Within (names evs) := by
  have main : ∀ (evs : List Ev) (s : Recv) (l : List Str), s.Within l → (∀ n, Ev.named n ∈ evs → n ∈ l) → (s.run evs).Within l := by
    intro evs
    induction evs with
    | nil => intro s l h _; exact h
    | cons e r ih =>
      intro s l h hl
      exact ih _ l (within_step h e fun n hn => hl n (hn ▸ List.mem_cons_self)) fun n hn => hl n (List.mem_cons_of_mem _ hn)
  exact main evs _ _ ⟨fun i c h => (by cases h), fun n h => (by cases h)⟩ fun n hn => mem_names.2 hn

theorem names_append (a b : List Ev) : names (a ++ b) = names a ++ names b := List.filterMap_append

/-- A name which comes once only has not come before. -/
theorem new_name {pre post : List Ev} {n : Str} (h : (names (pre ++ .named n :: post)).Nodup) : n ∉ names pre := by
  rw [names_append] at h
  intro hm
  exact (List.nodup_append.1 h).2.2 n hm n (mem_names.2 List.mem_cons_self) rfl

theorem patient_of_nodup {evs : List Ev} (h : (names evs).Nodup) : Patient Recv.start evs := by
  have main : ∀ (post pre : List Ev), (names (pre ++ post)).Nodup → Patient (Recv.start.run pre) post := by
    intro post
    induction post with
    | nil => intro pre _; trivial
    | cons e r ih =>
      intro pre h
      have hr : Patient ((Recv.start.run pre).step e) r := by
        have := ih (pre ++ [e]) (by simpa using h)
        rwa [Recv.run, List.foldl_append] at this
      cases e with
      | named n =>
        refine ⟨?_, hr⟩
        rintro ⟨i, hi⟩
        exact new_name h ((within_run pre).1 i _ hi)
      | offered i g => exact hr
      | answered i w => exact hr
      | closed i => exact hr
  exact main evs [] h

theorem Anonymous.nodup {evs : List Ev} (h : Anonymous evs) : (names evs).Nodup := by
  obtain ⟨ids, hn, he⟩ := h
  rw [he]
  refine List.pairwise_map.2 (hn.imp fun hab e => hab (anonymous_inj e))

/-! ## C104 -/

/-- **C104, without passwords**: whatever the clients do and however their threads run, no request is refused for its name. -/
theorem c104_anonymous (pre post : List Ev) (n : Str) (h : Anonymous (pre ++ .named n :: post)) :
    let s := Recv.start.run pre
    (s.step (.named n)).conns s.next = some ⟨n, .checking⟩ ∧ n ∈ (s.step (.named n)).connected := by
  have hn : n ∉ (Recv.start.run pre).connected := fun hm => new_name h.nodup ((within_run pre).2 n hm)
  intro s
  simp only [Recv.step]
  rw [if_neg hn]
  exact ⟨by simp [Recv.put], List.mem_cons_self⟩

/-- **C104, without passwords**: no two connections are live under the same name, and each is in the set of names exactly until it ends —
also while others are refused for their protocol (compare `c104_given_back_twice`). -/
theorem c104_anonymous_one (evs : List Ev) (h : Anonymous evs) :
    let s := Recv.start.run evs
    (∀ i j n, s.conns i = some ⟨n, .live⟩ → s.conns j = some ⟨n, .live⟩ → i = j) ∧ ∀ n, n ∈ s.connected ↔ ∃ i, s.Holds i n := by
  have hi := inv_run inv_start (patient_of_nodup h.nodup)
  exact ⟨fun i j n a b => hi.one i j n (Or.inr (Or.inr a)) (Or.inr (Or.inr b)), hi.set⟩

/-- Three requests whose threads overtake each other, one of them refused for its protocol. -/
example : Anonymous [.named (anonymous 1), .offered 0 false, .named (anonymous 0), .answered 0 true, .offered 1 true, .named (anonymous 12)] :=
  ⟨[1, 0, 12], by decide, rfl⟩

example : anonymous 12 = "anonymous12".toList := by decide +kernel

end Verif.Net.Receiver
