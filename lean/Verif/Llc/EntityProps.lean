import Verif.Llc.Entity
/-!
# C26 — the acknowledged service of the basic link is stop-and-wait

The specification is stated on traces: what happened to the LLC and what it did, in order. Messages are named by
the position of their request among all requests.
-/
namespace Verif.Llc
open Verif.Tdma Verif.TxReceipt
open Verif.Umac (Addr SsiType)

/-! ## Specification -/

/-- An acknowledged request. -/
structure Req where
  addr : Addr
  ts : Nat
  fcs : Bool
  sdu : List Bool
  deriving DecidableEq, Repr

/-- The request in a trace entry. -/
def Item.req : Item → Option Req
  | .ev (.dataReq addr ts _ fcs _ sdu) => some ⟨addr, ts, fcs, sdu⟩
  | _ => none

/-- The acknowledged requests so far, in order: message `k` is the `k`-th of them. -/
def reqs (tr : List Item) : List Req := tr.filterMap Item.req

/-- Is this entry a transmission of message `b`? -/
def Item.isSend (b : Nat) : Item → Bool
  | .out (.data id _ _ _) => id == b
  | _ => false

/-- How often message `b` was handed to the MAC. -/
def sends (tr : List Item) (b : Nat) : Nat := tr.countP (Item.isSend b)

/-- A final report was made for message `a`. -/
def Reported (tr : List Item) (a : Nat) : Prop := .out (.acknowledged a) ∈ tr ∨ .out (.lost a) ∈ tr

/-- The sequence number of the next message to a station, after these requests: the parity of how many there were. -/
def parity (rs : List Req) (ssi : Nat) : Bool := decide ((rs.countP fun r => r.addr.ssi == ssi) % 2 = 1)

/-- The time as of the latest tick. -/
def clock (tr : List Item) : Time :=
  tr.foldl (fun t i => match i with | .ev (.tickStart t') => t' | _ => t) Time.default

/-- The acknowledgement number carried by a received PDU: BL-ADATA or BL-ACK. -/
def ackIn : List Bool → Option Bool
  | false :: _ :: false :: false :: nr :: _ :: _ => some nr
  | false :: _ :: true :: true :: nr :: _ => some nr
  | _ => none

/-- `tr` is `p1`, then a transmission of message `b`, then `p2` without another one. -/
def LastSend (tr : List Item) (b : Nat) (p1 p2 : List Item) : Prop :=
  ∃ i, Item.isSend b i = true ∧ tr = p1 ++ i :: p2 ∧ sends p2 b = 0

/-- The latest transmission of `b` was followed by the MAC's report that it went on the air. -/
def OnAir (tr : List Item) (b : Nat) : Prop := ∃ p1 p2, LastSend tr b p1 p2 ∧ .ev (.mac b false) ∈ p2

/-- The latest transmission of `b` was followed by a report of the MAC, then by a tick end at time `t`. -/
def DoneAt (tr : List Item) (b : Nat) (t : Time) : Prop :=
  ∃ p1 p2 q1 q2, LastSend tr b p1 p2 ∧ p2 = q1 ++ .ev .tickEnd :: q2 ∧ (∃ d, .ev (.mac b d) ∈ q1) ∧
    ∃ p, tr = p ++ .ev .tickEnd :: q2 ∧ clock p = t

/-- The retry timer: sixteen timeslots (or a clock that went backwards). -/
def Waited (tr : List Item) (b : Nat) : Prop := ∃ t, DoneAt tr b t ∧ ((clock tr).diff t ≥ 16 ∨ (clock tr).diff t < 0)

/-- Where a message stands. -/
inductive Phase where
  /-- never handed down -/
  | idle
  /-- handed down, the MAC has not reported yet -/
  | sent
  /-- reported by the MAC: sent on the air or discarded -/
  | reported (discarded : Bool)
  /-- the report was noticed at the end of a tick at time `t` -/
  | noticed (discarded : Bool) (t : Time)
  deriving DecidableEq, Repr

/-- How an entry of the trace moves message `b` on. -/
def Phase.next (b : Nat) (now : Time) (p : Phase) : Item → Phase
  | .out (.data id _ _ _) => if id = b then .sent else p
  | .ev (.mac id d) => if id = b ∧ p = .sent then .reported d else p
  | .ev .tickEnd => match p with | .reported d => .noticed d now | p => p
  | _ => p

/-- Where message `b` stands after a trace (built from the end). -/
def phaseR (b : Nat) : List Item → Phase
  | [] => .idle
  | i :: r => (phaseR b r).next b (clock r.reverse) i
/-- Where message `b` stands after a trace. -/
def phase (tr : List Item) (b : Nat) : Phase := phaseR b tr.reverse

/-- What must hold of what came before for an output to be right. -/
def Fine (pre : List Item) : Emit → Prop
  | .data b addr ts pdu =>
    ∃ r, (reqs pre)[b]? = some r ∧ addr = r.addr ∧ ts = r.ts ∧
      (∃ hdr, pdu = hdr ++ r.sdu ∧
        (hdr = [false, r.fcs, false, true, parity ((reqs pre).take b) r.addr.ssi] ∨
         ∃ nr, hdr = [false, r.fcs, false, false, nr, parity ((reqs pre).take b) r.addr.ssi])) ∧
      (∀ a q, a < b → (reqs pre)[a]? = some q → q.addr.ssi = r.addr.ssi → Reported pre a) ∧
      ¬ Reported pre b ∧ sends pre b < 4 ∧ (0 < sends pre b → Waited pre b)
  | .lost b => sends pre b = 4 ∧ ¬ Reported pre b ∧ Waited pre b
  | .acknowledged b =>
    ¬ Reported pre b ∧ ∃ p addr ts pdu r, pre = p ++ [.ev (.ind addr ts pdu)] ∧ (reqs pre)[b]? = some r ∧
      addr.ssi = r.addr.ssi ∧ ackIn pdu = some (parity ((reqs pre).take b) r.addr.ssi) ∧
      ((∃ t, DoneAt p b t) ∧ OnAir p b)
  | _ => True

/-- Every output in the trace is right. -/
def Good (tr : List Item) : Prop := ∀ pre o post, tr = pre ++ .out o :: post → Fine pre o

/-! ## Lists -/

theorem snoc_split {α : Type} {l pre post : List α} {x y : α} (h : l ++ [x] = pre ++ y :: post) :
    (post = [] ∧ l = pre ∧ x = y) ∨ ∃ post', post = post' ++ [x] ∧ l = pre ++ y :: post' := by
  rcases List.eq_nil_or_concat post with rfl | ⟨p, z, rfl⟩
  · left
    have := List.append_inj' h rfl
    simp at this; exact ⟨rfl, this.1, this.2⟩
  · right
    rw [List.concat_eq_append] at h ⊢
    rw [← List.cons_append, ← List.append_assoc] at h
    have := List.append_inj' h rfl
    simp at this
    exact ⟨p, by rw [this.2], by rw [this.1]⟩

theorem good_nil : Good [] := by intro pre o post h; simp at h

theorem good_snoc {tr : List Item} {i : Item} (h : Good tr) (hi : ∀ o, i = .out o → Fine tr o) : Good (tr ++ [i]) := by
  intro pre o post e
  rcases snoc_split e with ⟨_, rfl, h2⟩ | ⟨p, _, h2⟩
  · exact hi o h2
  · exact h _ _ _ h2

/-! ## How the notions change when the trace grows -/

theorem reqs_append (a b : List Item) : reqs (a ++ b) = reqs a ++ reqs b := by simp [reqs]
theorem sends_append (a b : List Item) (k : Nat) : sends (a ++ b) k = sends a k + sends b k := by simp [sends]
theorem clock_append (a b : List Item) (h : ∀ t, .ev (.tickStart t) ∉ b) : clock (a ++ b) = clock a := by
  unfold clock
  rw [List.foldl_append]
  generalize a.foldl _ _ = t0
  induction b generalizing t0 with
  | nil => rfl
  | cons i b ih =>
    have h1 : ∀ t, i ≠ .ev (.tickStart t) := fun t e => h t (by simp [e])
    have h2 : ∀ t, .ev (.tickStart t) ∉ b := fun t e => h t (by simp [e])
    simp only [List.foldl_cons]
    rw [ih h2]
theorem clock_tick (a : List Item) (t : Time) : clock (a ++ [.ev (.tickStart t)]) = t := by simp [clock]

theorem reported_append (a b : List Item) (k : Nat) : Reported (a ++ b) k ↔ Reported a k ∨ Reported b k := by
  simp only [Reported, List.mem_append]
  constructor
  · rintro ((h | h) | (h | h)) <;> simp [h]
  · rintro ((h | h) | (h | h)) <;> simp [h]

theorem lastSend_append {tr : List Item} {b : Nat} {p1 p2 : List Item} (h : LastSend tr b p1 p2) (x : List Item)
    (hx : sends x b = 0) : LastSend (tr ++ x) b p1 (p2 ++ x) := by
  obtain ⟨i, h1, h2, h3⟩ := h
  exact ⟨i, h1, by simp [h2], by rw [sends_append, h3, hx]⟩

theorem doneAt_append {tr : List Item} {b : Nat} {t : Time} (h : DoneAt tr b t) (x : List Item) (hx : sends x b = 0) :
    DoneAt (tr ++ x) b t := by
  obtain ⟨p1, p2, q1, q2, h1, h2, h3, p, h4, h5⟩ := h
  exact ⟨p1, p2 ++ x, q1, q2 ++ x, lastSend_append h1 x hx, by simp [h2], h3, p, by simp [h4], h5⟩

theorem onAir_append {tr : List Item} {b : Nat} (h : OnAir tr b) (x : List Item) (hx : sends x b = 0) :
    OnAir (tr ++ x) b := by
  obtain ⟨p1, p2, h1, h2⟩ := h
  exact ⟨p1, p2 ++ x, lastSend_append h1 x hx, by simp [h2]⟩

theorem phase_snoc (tr : List Item) (i : Item) (b : Nat) : phase (tr ++ [i]) b = (phase tr b).next b (clock tr) i := by
  simp [phase, phaseR]

theorem phase_nil (b : Nat) : phase [] b = .idle := rfl

theorem snoc_induction {α : Type} {P : List α → Prop} (h0 : P []) (h1 : ∀ l x, P l → P (l ++ [x])) (l : List α) : P l := by
  rw [← l.reverse_reverse]
  induction l.reverse with
  | nil => exact h0
  | cons x r ih => rw [List.reverse_cons]; exact h1 _ _ ih

theorem phase_unsent {tr : List Item} {b : Nat} (h : sends tr b = 0) : phase tr b = .idle := by
  induction tr using snoc_induction with
  | h0 => rfl
  | h1 l x ih =>
    rw [sends_append] at h
    rw [phase_snoc, ih (by omega)]
    cases x with
    | ev e => cases e <;> simp [Phase.next]
    | out o =>
      cases o <;> simp [Phase.next]
      intro he; subst he
      simp [sends, Item.isSend] at h

/-- Where the entry of the queue says the message stands. -/
def Msg.phase (m : Msg) : Phase :=
  if m.submitted = false then .idle
  else match m.tDone with
    | some t => .noticed (m.cell.raw == 1) t
    | none => if m.cell.raw = 0 then .sent else .reported (m.cell.raw == 1)

theorem getElem?_append_some {α : Type} {l : List α} {k : Nat} {r : α} (h : l[k]? = some r) (x : List α) :
    (l ++ x)[k]? = some r ∧ (l ++ x).take k = l.take k := by
  have hk : k < l.length := by
    rw [List.getElem?_eq_some_iff] at h; exact h.1
  refine ⟨by rw [List.getElem?_append_left hk]; exact h, ?_⟩
  rw [List.take_append_of_le_length (by omega)]

/-! ## The invariant -/

/-- What is known of a queued message. -/
structure Entry (tr : List Item) (m : Msg) : Prop where
  req : (reqs tr)[m.id]? = some ⟨m.addr, m.ts, m.fcs, m.sdu⟩
  ns : m.ns = parity ((reqs tr).take m.id) m.addr.ssi
  open_ : ¬ Reported tr m.id
  count : m.count ≤ 3
  sent : m.submitted = true → sends tr m.id = m.count + 1
  fresh : m.submitted = false → sends tr m.id = 0 ∧ m.count = 0 ∧ m.tDone = none ∧ m.cell.raw = 0
  raw : m.cell.raw ≤ 2
  last : m.submitted = true → ∃ p1 p2, LastSend tr m.id p1 p2 ∧ (m.cell.raw = 2 → .ev (.mac m.id false) ∈ p2) ∧
    (m.cell.raw = 1 → .ev (.mac m.id true) ∈ p2)
  done : ∀ t, m.tDone = some t → DoneAt tr m.id t ∧ m.cell.raw ≠ 0

/-- What holds between the queue and the trace. -/
structure Inv (out : List Msg) (tr : List Item) : Prop where
  ord : out.Pairwise fun a b => a.addr.ssi = b.addr.ssi → a.id < b.id ∧ b.submitted = false
  uniq : out.Pairwise fun a b => a.id ≠ b.id
  ent : ∀ m ∈ out, Entry tr m
  all : ∀ k, k < (reqs tr).length → Reported tr k ∨ ∃ m ∈ out, m.id = k
  good : Good tr
  ph : ∀ m ∈ out, m.phase = phase tr m.id

/-- An entry that neither requests, transmits nor reports anything. -/
def Item.quiet : Item → Bool
  | .ev (.dataReq ..) => false
  | .ev (.mac ..) => false
  | .ev .tickEnd => false
  | .ev (.tickStart _) => true
  | .ev _ => true
  | .out (.data ..) => false
  | .out (.acknowledged _) => false
  | .out (.lost _) => false
  | .out _ => true

theorem quiet_facts {i : Item} (h : i.quiet = true) : i.req = none ∧ (∀ b, i.isSend b = false) ∧
    (∀ k, ¬ Reported [i] k) ∧ (∀ tr o, i = .out o → Fine tr o) ∧ ∀ p b now, Phase.next b now p i = p := by
  cases i with
  | ev e => cases e <;> simp [Item.quiet, Item.req, Item.isSend, Reported, Phase.next] at *
  | out o => cases o <;> simp [Item.quiet, Item.req, Item.isSend, Reported, Fine, Phase.next] at *

theorem sends_quiet {i : Item} (h : i.quiet = true) (b : Nat) : sends [i] b = 0 := by
  simp [sends, (quiet_facts h).2.1 b]

/-- A growing trace keeps what is known of a message, if the new part says nothing about it. -/
theorem Entry.mono {tr : List Item} {m : Msg} (h : Entry tr m) (x : List Item) (hx : sends x m.id = 0)
    (hr : ¬ Reported x m.id) : Entry (tr ++ x) m := by
  have hg := getElem?_append_some h.req (reqs x)
  refine ⟨by rw [reqs_append]; exact hg.1, by rw [reqs_append, hg.2]; exact h.ns, ?_, h.count, ?_, ?_, h.raw, ?_, ?_⟩
  · rw [reported_append]; exact fun hh => hh.elim h.open_ hr
  · intro hs; rw [sends_append, hx, h.sent hs]
  · intro hs; rw [sends_append, hx]; exact ⟨(h.fresh hs).1, (h.fresh hs).2⟩
  · intro hs
    obtain ⟨p1, p2, h1, h2, h3⟩ := h.last hs
    exact ⟨p1, p2 ++ x, lastSend_append h1 x hx, fun h => by simp [h2 h], fun h => by simp [h3 h]⟩
  · intro t ht
    exact ⟨doneAt_append (h.done t ht).1 x hx, (h.done t ht).2⟩

theorem Inv.quiet {out : List Msg} {tr : List Item} (h : Inv out tr) {i : Item} (hi : i.quiet = true) : Inv out (tr ++ [i]) := by
  have hq := quiet_facts hi
  have hr : reqs (tr ++ [i]) = reqs tr := by rw [reqs_append]; simp [reqs, hq.1]
  refine ⟨h.ord, h.uniq, fun m hm => (h.ent m hm).mono [i] (sends_quiet hi _) (hq.2.2.1 _), ?_,
    good_snoc h.good fun o e => hq.2.2.2.1 tr o e, fun m hm => by rw [phase_snoc, hq.2.2.2.2]; exact h.ph m hm⟩
  intro k hk
  rw [hr] at hk
  rw [reported_append]
  rcases h.all k hk with hh | hh
  · exact .inl (.inl hh)
  · exact .inr hh

/-- `Inv` when a message in the queue is replaced by a later version of itself and the trace grows. -/
theorem Inv.replace {l1 l2 : List Msg} {m m' : Msg} {tr x : List Item} (h : Inv (l1 ++ m :: l2) tr)
    (hid : m'.id = m.id) (haddr : m'.addr = m.addr)
    (hsub : m'.submitted = true → m.submitted = true ∨ ∀ a ∈ l1, a.addr.ssi ≠ m.addr.ssi)
    (hent : Entry (tr ++ x) m') (hx : ∀ b, b ≠ m.id → sends x b = 0) (hrep : ∀ b, ¬ Reported x b) (hreq : reqs x = [])
    (hgood : Good (tr ++ x)) (hpx : ∀ b, b ≠ m.id → phase (tr ++ x) b = phase tr b) (hpm : m'.phase = phase (tr ++ x) m.id) :
    Inv (l1 ++ m' :: l2) (tr ++ x) := by
  have ho := h.ord; have hu := h.uniq
  rw [List.pairwise_append, List.pairwise_cons] at ho hu
  refine ⟨?_, ?_, ?_, ?_, hgood, ?_⟩
  rotate_right
  · intro a ha
    rw [List.mem_append, List.mem_cons] at ha
    rcases ha with ha | rfl | ha
    · rw [hpx _ (hu.2.2 a ha m (by simp))]; exact h.ph a (by simp [ha])
    · rw [hid]; exact hpm
    · rw [hpx _ (Ne.symm (hu.2.1.1 a ha))]; exact h.ph a (by simp [ha])
  · rw [List.pairwise_append, List.pairwise_cons]
    refine ⟨ho.1, ⟨?_, ho.2.1.2⟩, ?_⟩
    · intro b hb he; rw [hid]; exact ho.2.1.1 b hb (by rw [← haddr]; exact he)
    · intro a ha b hb he
      rw [List.mem_cons] at hb
      rcases hb with rfl | hb
      · have := ho.2.2 a ha m (by simp) (by rw [he, haddr])
        refine ⟨by rw [hid]; exact this.1, ?_⟩
        cases hs : b.submitted with
        | false => rfl
        | true =>
          rcases hsub hs with h1 | h1
          · rw [this.2] at h1; cases h1
          · exact absurd (by rw [he, haddr]) (h1 a ha)
      · exact ho.2.2 a ha b (by simp [hb]) he
  · rw [List.pairwise_append, List.pairwise_cons]
    refine ⟨hu.1, ⟨by rw [hid]; exact hu.2.1.1, hu.2.1.2⟩, ?_⟩
    intro a ha b hb
    rw [List.mem_cons] at hb
    rcases hb with rfl | hb
    · rw [hid]; exact hu.2.2 a ha m (by simp)
    · exact hu.2.2 a ha b (by simp [hb])
  · intro a ha
    rw [List.mem_append, List.mem_cons] at ha
    rcases ha with ha | rfl | ha
    · exact (h.ent a (by simp [ha])).mono x (hx _ (hu.2.2 a ha m (by simp))) (hrep _)
    · exact hent
    · exact (h.ent a (by simp [ha])).mono x (hx _ (Ne.symm (hu.2.1.1 a ha))) (hrep _)
  · intro k hk
    rw [reqs_append, hreq, List.append_nil] at hk
    rw [reported_append]
    rcases h.all k hk with hh | ⟨a, ha, e⟩
    · exact .inl (.inl hh)
    · right
      rw [List.mem_append, List.mem_cons] at ha
      rcases ha with ha | rfl | ha
      · exact ⟨a, by simp [ha], e⟩
      · exact ⟨m', by simp, by rw [hid]; exact e⟩
      · exact ⟨a, by simp [ha], e⟩

/-- `Inv` when a message leaves the queue with a final report. -/
theorem Inv.remove {l1 l2 : List Msg} {m : Msg} {tr : List Item} {o : Emit} (h : Inv (l1 ++ m :: l2) tr)
    (ho : o = .acknowledged m.id ∨ o = .lost m.id) (hf : Fine tr o) : Inv (l1 ++ l2) (tr ++ [.out o]) := by
  have hord := h.ord; have hu := h.uniq
  rw [List.pairwise_append, List.pairwise_cons] at hord hu
  have hreq : reqs (tr ++ [.out o]) = reqs tr := by rw [reqs_append]; simp [reqs, Item.req]
  have hs : ∀ b, sends [.out o] b = 0 := by
    intro b; rcases ho with rfl | rfl <;> simp [sends, Item.isSend]
  have hrep : ∀ b, Reported [.out o] b ↔ b = m.id := by
    intro b; rcases ho with rfl | rfl <;> simp [Reported]
  refine ⟨?_, ?_, ?_, ?_, good_snoc h.good fun o' e => by cases e; exact hf, ?_⟩
  rotate_right
  · intro a ha
    have hn : phase (tr ++ [.out o]) a.id = phase tr a.id := by
      rw [phase_snoc]; rcases ho with rfl | rfl <;> rfl
    rw [hn]
    rw [List.mem_append] at ha
    rcases ha with ha | ha <;> exact h.ph a (by simp [ha])
  · rw [List.pairwise_append]
    exact ⟨hord.1, hord.2.1.2, fun a ha b hb => hord.2.2 a ha b (by simp [hb])⟩
  · rw [List.pairwise_append]
    exact ⟨hu.1, hu.2.1.2, fun a ha b hb => hu.2.2 a ha b (by simp [hb])⟩
  · intro a ha
    rw [List.mem_append] at ha
    rcases ha with ha | ha
    · refine (h.ent a (by simp [ha])).mono _ (hs _) ?_
      rw [hrep]; exact hu.2.2 a ha m (by simp)
    · refine (h.ent a (by simp [ha])).mono _ (hs _) ?_
      rw [hrep]; exact Ne.symm (hu.2.1.1 a ha)
  · intro k hk
    rw [hreq] at hk
    rw [reported_append, hrep]
    rcases h.all k hk with hh | ⟨a, ha, e⟩
    · exact .inl (.inl hh)
    · rw [List.mem_append, List.mem_cons] at ha
      rcases ha with ha | rfl | ha
      · exact .inr ⟨a, by simp [ha], e⟩
      · exact .inl (.inr e.symm)
      · exact .inr ⟨a, by simp [ha], e⟩

/-- `Inv` when the oldest message of a station moves to the front. -/
theorem Inv.front {l1 l2 : List Msg} {m : Msg} {tr : List Item} (h : Inv (l1 ++ m :: l2) tr) (hs : m.submitted = true) :
    Inv (m :: (l1 ++ l2)) tr := by
  have ho := h.ord; have hu := h.uniq
  rw [List.pairwise_append, List.pairwise_cons] at ho hu
  have hmem : ∀ a, a ∈ m :: (l1 ++ l2) ↔ a ∈ l1 ++ m :: l2 := by
    intro a; simp only [List.mem_cons, List.mem_append]
    constructor
    · rintro (h | h | h) <;> simp [h]
    · rintro (h | h | h) <;> simp [h]
  refine ⟨?_, ?_, fun a ha => h.ent a ((hmem a).1 ha), ?_, h.good, fun a ha => h.ph a ((hmem a).1 ha)⟩
  · rw [List.pairwise_cons, List.pairwise_append]
    refine ⟨?_, ho.1, ho.2.1.2, fun a ha b hb => ho.2.2 a ha b (by simp [hb])⟩
    intro a ha he
    rw [List.mem_append] at ha
    rcases ha with ha | ha
    · have := (ho.2.2 a ha m (by simp) he.symm).2
      rw [hs] at this; cases this
    · exact ho.2.1.1 a ha he
  · rw [List.pairwise_cons, List.pairwise_append]
    refine ⟨?_, hu.1, hu.2.1.2, fun a ha b hb => hu.2.2 a ha b (by simp [hb])⟩
    intro a ha
    rw [List.mem_append] at ha
    rcases ha with ha | ha
    · exact Ne.symm (hu.2.2 a ha m (by simp))
    · exact hu.2.1.1 a ha
  · intro k hk
    rcases h.all k hk with hh | ⟨a, ha, e⟩
    · exact .inl hh
    · exact .inr ⟨a, (hmem a).2 ha, e⟩

/-- `Inv` when the notes in the entries change but neither addresses, numbers nor submission. -/
theorem Inv.mapEntries {out : List Msg} {tr x : List Item} (h : Inv out tr) (g : Msg → Msg)
    (hid : ∀ m, (g m).id = m.id) (haddr : ∀ m, (g m).addr = m.addr) (hsub : ∀ m, (g m).submitted = m.submitted)
    (hent : ∀ m ∈ out, Entry (tr ++ x) m → Entry (tr ++ x) (g m)) (hx : ∀ b, sends x b = 0) (hrep : ∀ b, ¬ Reported x b)
    (hreq : reqs x = []) (hgood : Good (tr ++ x)) (hph : ∀ m ∈ out, (g m).phase = phase (tr ++ x) m.id) :
    Inv (out.map g) (tr ++ x) := by
  refine ⟨?_, ?_, ?_, ?_, hgood, ?_⟩
  rotate_right
  · intro a ha
    rw [List.mem_map] at ha
    obtain ⟨m, hm, rfl⟩ := ha
    rw [hid]; exact hph m hm
  · rw [List.pairwise_map]
    refine h.ord.imp ?_
    intro a b hab; rw [hid, hid, haddr, haddr, hsub]; exact hab
  · rw [List.pairwise_map]
    refine h.uniq.imp ?_
    intro a b hab; rw [hid, hid]; exact hab
  · intro a ha
    rw [List.mem_map] at ha
    obtain ⟨m, hm, rfl⟩ := ha
    exact hent m hm ((h.ent m hm).mono x (hx _) (hrep _))
  · intro k hk
    rw [reqs_append, hreq, List.append_nil] at hk
    rw [reported_append]
    rcases h.all k hk with hh | ⟨a, ha, e⟩
    · exact .inl (.inl hh)
    · exact .inr ⟨g a, List.mem_map_of_mem ha, by rw [hid]; exact e⟩

/-! ## The pieces of the model -/

theorem takeOutstanding_some {ssi : Nat} {out : List Msg} {m : Msg} {rest : List Msg}
    (h : takeOutstanding ssi out = some (m, rest)) :
    ∃ l1 l2, out = l1 ++ m :: l2 ∧ rest = l1 ++ l2 ∧ m.addr.ssi = ssi ∧ m.submitted = true := by
  induction out generalizing rest with
  | nil => simp [takeOutstanding] at h
  | cons a r ih =>
    simp only [takeOutstanding] at h
    split at h
    · rename_i hc
      simp at h; obtain ⟨rfl, rfl⟩ := h
      exact ⟨[], r, rfl, rfl, hc.1, hc.2⟩
    · rw [Option.map_eq_some_iff] at h
      obtain ⟨⟨m', r'⟩, h1, h2⟩ := h
      simp at h2; obtain ⟨rfl, rfl⟩ := h2
      obtain ⟨l1, l2, rfl, rfl, h3⟩ := ih h1
      exact ⟨a :: l1, l2, rfl, rfl, h3⟩

theorem takeOutstanding_none {ssi : Nat} {out : List Msg} (h : takeOutstanding ssi out = none) :
    ∀ m ∈ out, ¬ (m.addr.ssi = ssi ∧ m.submitted = true) := by
  induction out with
  | nil => simp
  | cons a r ih =>
    simp only [takeOutstanding] at h
    split at h
    · cases h
    · rename_i hc
      rw [Option.map_eq_none_iff] at h
      intro m hm
      rw [List.mem_cons] at hm
      rcases hm with rfl | hm
      · exact hc
      · exact ih h m hm

/-- Only one message of a station is outstanding. -/
theorem Inv.one {out : List Msg} {tr : List Item} (h : Inv out tr) {a b : Msg} (ha : a ∈ out) (hb : b ∈ out)
    (hsa : a.submitted = true) (hsb : b.submitted = true) (he : a.addr.ssi = b.addr.ssi) : a = b := by
  have ho := h.ord
  rw [List.mem_iff_append] at ha
  obtain ⟨l1, l2, rfl⟩ := ha
  rw [List.pairwise_append, List.pairwise_cons] at ho
  rw [List.mem_append, List.mem_cons] at hb
  rcases hb with hb | rfl | hb
  · have := (ho.2.2 b hb a (by simp) he.symm).2; rw [hsa] at this; cases this
  · rfl
  · have := (ho.2.1.1 b hb he).2; rw [hsb] at this; cases this

theorem isTransmitted_iff (c : Cell) : c.isTransmitted = true ↔ 2 ≤ c.raw := by
  simp [Cell.isTransmitted, TxState.raw]
theorem isDiscarded_iff (c : Cell) : c.isDiscarded = true ↔ c.raw = 1 := by
  simp [Cell.isDiscarded, TxState.raw]

/-- A tick end, as far as noticing the MAC's reports goes. -/
theorem Inv.note {out : List Msg} {tr : List Item} (h : Inv out tr) :
    Inv (out.map fun m => m.noteDone (clock tr)) (tr ++ [.ev .tickEnd]) := by
  have hc : ∀ m : Msg, (m.noteDone (clock tr)).id = m.id ∧ (m.noteDone (clock tr)).addr = m.addr ∧
      (m.noteDone (clock tr)).submitted = m.submitted := by
    intro m; unfold Msg.noteDone; split <;> simp
  refine h.mapEntries _ (fun m => (hc m).1) (fun m => (hc m).2.1) (fun m => (hc m).2.2) ?_ (by simp [sends, Item.isSend])
    (by simp [Reported]) (by simp [reqs, Item.req]) (good_snoc h.good (by simp)) ?_
  rotate_left
  · intro m hm
    rw [phase_snoc, ← h.ph m hm]
    have h0 := h.ent m hm
    unfold Msg.noteDone
    split
    · rename_i hc
      rw [Bool.or_eq_true, isTransmitted_iff, isDiscarded_iff] at hc
      have hsub : m.submitted = true := by
        cases hs : m.submitted with
        | true => rfl
        | false => have := (h0.fresh hs).2.2.2; omega
      have : m.cell.raw ≠ 0 := by omega
      simp [Msg.phase, hsub, hc.1, this, Phase.next]
    · rename_i hc
      rw [Bool.or_eq_true, isTransmitted_iff, isDiscarded_iff] at hc
      unfold Msg.phase
      split
      · rfl
      · rename_i hs
        cases ht : m.tDone with
        | some t => rfl
        | none =>
          have : m.cell.raw = 0 := by
            have := h0.raw
            simp only [ht, true_and] at hc; omega
          simp [this, Phase.next]
  intro m hm he
  have h0 := h.ent m hm
  unfold Msg.noteDone
  split
  · rename_i hcond
    obtain ⟨hn, hc⟩ := hcond
    have hraw : m.cell.raw = 1 ∨ m.cell.raw = 2 := by
      rw [Bool.or_eq_true, isTransmitted_iff, isDiscarded_iff] at hc
      have := h0.raw; omega
    have hsub : m.submitted = true := by
      cases hs : m.submitted with
      | true => rfl
      | false => have := (h0.fresh hs).2.2.2; omega
    refine ⟨he.req, he.ns, he.open_, he.count, he.sent, ?_, he.raw, he.last, ?_⟩
    · intro hs; simp [hsub] at hs
    · intro t ht
      simp only [Option.some.injEq] at ht
      subst ht
      obtain ⟨p1, p2, h1, h2, h3⟩ := h0.last hsub
      refine ⟨⟨p1, p2 ++ [.ev .tickEnd], p2, [], lastSend_append h1 _ (by simp [sends, Item.isSend]), by simp, ?_, tr, by simp, rfl⟩,
        by simp only; omega⟩
      rcases hraw with hr | hr
      · exact ⟨true, h3 hr⟩
      · exact ⟨false, h2 hr⟩
  · exact he

theorem noteDone_noteDone (m : Msg) (now : Time) : (m.noteDone now).noteDone now = m.noteDone now := by
  unfold Msg.noteDone
  split
  · rw [if_neg (by simp)]
  · rfl

theorem timedOut_spec {m : Msg} {tr : List Item} (h : Entry tr m) (ht : m.timedOut (clock tr) = true) :
    Waited tr m.id ∧ m.submitted = true ∧ m.cell.raw ≠ 0 := by
  unfold Msg.timedOut at ht
  split at ht
  · cases ht
  · rename_i t heq
    obtain ⟨h1, h2⟩ := h.done t heq
    refine ⟨⟨t, h1, ?_⟩, ?_, h2⟩
    · rw [Bool.or_eq_true, decide_eq_true_eq, decide_eq_true_eq] at ht
      simp only [T251] at ht
      omega
    · cases hs : m.submitted with
      | true => rfl
      | false => rw [(h.fresh hs).2.2.1] at heq; cases heq

/-- Handing a message down. -/
theorem Entry.submit {tr : List Item} {m : Msg} (h : Entry tr m) (n : Nat) (hn : n ≤ 3) (hc : sends tr m.id = n) :
    Entry (tr ++ [.out m.emit]) { m.submit with count := n } := by
  have hg := getElem?_append_some h.req (reqs [.out m.emit])
  have hs1 : sends [.out m.emit] m.id = 1 := by simp [sends, Item.isSend, Msg.emit]
  refine ⟨by rw [reqs_append]; exact hg.1, by rw [reqs_append]; simp only [Msg.submit]; rw [hg.2]; exact h.ns, ?_, hn, ?_, ?_, ?_, ?_, ?_⟩
  · rw [reported_append]
    rintro (hh | hh)
    · exact h.open_ hh
    · simp [Reported, Msg.emit] at hh
  · intro _; rw [sends_append]; show sends tr m.id + sends [.out m.emit] m.id = n + 1; rw [hs1, hc]
  · intro hs; simp [Msg.submit] at hs
  · simp [Msg.submit, Cell.reset, TxState.raw]
  · intro _
    refine ⟨tr, [], ⟨.out m.emit, by simp [Item.isSend, Msg.emit, Msg.submit], rfl, rfl⟩, ?_, ?_⟩ <;>
      simp [Msg.submit, Cell.reset, TxState.raw]
  · intro t ht; simp [Msg.submit] at ht

theorem Msg.emit_fine {tr : List Item} {m : Msg} (h : Entry tr m) (h4 : sends tr m.id < 4)
    (hold : ∀ a q, a < m.id → (reqs tr)[a]? = some q → q.addr.ssi = m.addr.ssi → Reported tr a)
    (hw : 0 < sends tr m.id → Waited tr m.id) : Fine tr m.emit := by
  refine ⟨_, h.req, rfl, rfl, ?_, hold, h.open_, h4, hw⟩
  unfold Msg.pdu
  cases hn : m.nr with
  | none => exact ⟨_, rfl, .inl (by simp only [h.ns])⟩
  | some nr => exact ⟨_, rfl, .inr ⟨nr, by simp only [h.ns]⟩⟩

/-- When a message may be sent, all older ones of the station have been reported. -/
theorem Inv.older {l1 l2 : List Msg} {m : Msg} {tr : List Item} (h : Inv (l1 ++ m :: l2) tr)
    (hl : ∀ a ∈ l1, a.addr.ssi ≠ m.addr.ssi) (a : Nat) (q : Req) (ha : a < m.id) (hq : (reqs tr)[a]? = some q)
    (hs : q.addr.ssi = m.addr.ssi) : Reported tr a := by
  have hlen : a < (reqs tr).length := by rw [List.getElem?_eq_some_iff] at hq; exact hq.1
  rcases h.all a hlen with hh | ⟨x, hx, e⟩
  · exact hh
  · exfalso
    have hx' := (h.ent x hx).req
    rw [e, hq] at hx'
    have hxs : x.addr.ssi = m.addr.ssi := by
      simp only [Option.some.injEq] at hx'; rw [← hs, hx']
    have ho := h.ord
    rw [List.pairwise_append, List.pairwise_cons] at ho
    rw [List.mem_append, List.mem_cons] at hx
    rcases hx with hx | rfl | hx
    · exact hl x hx hxs
    · omega
    · have := (ho.2.1.1 x hx hxs.symm).1; omega

/-- In front of an outstanding message there is none of the same station. -/
theorem Inv.first {l1 l2 : List Msg} {m : Msg} {tr : List Item} (h : Inv (l1 ++ m :: l2) tr) (hs : m.submitted = true) :
    ∀ a ∈ l1, a.addr.ssi ≠ m.addr.ssi := by
  intro a ha he
  have ho := h.ord
  rw [List.pairwise_append] at ho
  have := (ho.2.2 a ha m (by simp) he).2
  rw [hs] at this; cases this

theorem clock_emits (tr : List Item) (es : List Emit) : clock (tr ++ es.map .out) = clock tr :=
  clock_append _ _ (by simp)

theorem msg_phase_emit (m : Msg) (tr : List Item) : (∀ b, b ≠ m.id → phase (tr ++ [.out m.emit]) b = phase tr b) ∧
    m.submit.phase = phase (tr ++ [.out m.emit]) m.id ∧
    ({ m.submit with count := m.count + 1 } : Msg).phase = phase (tr ++ [.out m.emit]) m.id := by
  refine ⟨fun b hb => ?_, ?_, ?_⟩
  · rw [phase_snoc]; simp [Phase.next, Msg.emit, Ne.symm hb]
  · rw [phase_snoc]; simp [Phase.next, Msg.emit, Msg.phase, Msg.submit, Cell.reset, TxState.raw]
  · rw [phase_snoc]; simp [Phase.next, Msg.emit, Msg.phase, Msg.submit, Cell.reset, TxState.raw]

/-- The retransmission loop. -/
theorem Inv.retries {out : List Msg} (done : List Msg) {tr : List Item} (now : Time) (h : Inv (done ++ out) tr)
    (hnow : clock tr = now) (hnoted : ∀ m ∈ out, m.noteDone now = m) :
    Inv (done ++ (out.map fun m => m.retry now).map fun r => r.1)
      (tr ++ ((out.map fun m => m.retry now).map fun r => r.2.1).flatten.map .out) ∧
    (∀ r ∈ out.map fun m => m.retry now, r.2.2 = true → r.1 ∈ out ∧ r.1.timedOut now = true ∧ ¬ r.1.count < 3) := by
  induction out generalizing done tr with
  | nil => simpa using h
  | cons m out ih =>
    have hm := hnoted m (by simp)
    have hent := h.ent m (by simp)
    by_cases ht : m.timedOut now = true ∧ m.count < N252
    · have hr : m.retry now = ({ m.submit with count := m.count + 1 }, [m.emit], false) := by
        simp [Msg.retry, hm, ht.1, ht.2]
      obtain ⟨hw, hsub, _⟩ := timedOut_spec hent (by rw [hnow]; exact ht.1)
      have hfine : Fine tr m.emit := by
        refine m.emit_fine hent ?_ (h.older (h.first hsub)) (fun _ => hw)
        rw [hent.sent hsub]; have := ht.2; simp only [N252] at this; omega
      have hinv : Inv (done ++ { m.submit with count := m.count + 1 } :: out) (tr ++ [.out m.emit]) := by
        refine h.replace (m' := { m.submit with count := m.count + 1 }) rfl rfl (fun _ => .inl hsub) ?_ ?_ (by simp [Reported, Msg.emit]) (by simp [reqs, Item.req, Msg.emit])
          (good_snoc h.good fun o e => by cases e; exact hfine) (msg_phase_emit m tr).1 (msg_phase_emit m tr).2.2
        · exact hent.submit _ (by have := ht.2; simp only [N252] at this; omega) (hent.sent hsub)
        · intro b hb; simp [sends, Item.isSend, Msg.emit]; exact Ne.symm hb
      have := ih (done ++ [{ m.submit with count := m.count + 1 }]) (tr := tr ++ [.out m.emit]) (by simpa using hinv)
        (by rw [← hnow]; exact clock_append _ _ (by simp)) (fun x hx => hnoted x (by simp [hx]))
      refine ⟨by simpa [hr] using this.1, ?_⟩
      intro r hr' hd
      rw [List.map_cons, List.mem_cons, hr] at hr'
      rcases hr' with rfl | hr'
      · cases hd
      · have := this.2 r hr' hd; exact ⟨by simp [this.1], this.2⟩
    · have hr : ∃ d, m.retry now = (m, [], d) ∧ (d = true → m.timedOut now = true ∧ ¬ m.count < 3) := by
        unfold Msg.retry
        rw [hm]
        by_cases h1 : m.timedOut now = true
        · have h2 : ¬ m.count < N252 := fun h => ht ⟨h1, h⟩
          exact ⟨true, by simp [h1, h2], fun _ => ⟨h1, h2⟩⟩
        · exact ⟨false, by simp [h1], by simp⟩
      obtain ⟨d, hr, hd⟩ := hr
      have := ih (done ++ [m]) (by simpa using h) hnow (fun x hx => hnoted x (by simp [hx]))
      refine ⟨by simpa [hr] using this.1, ?_⟩
      intro r hr' hd'
      rw [List.map_cons, List.mem_cons, hr] at hr'
      rcases hr' with rfl | hr'
      · exact ⟨by simp, hd hd'⟩
      · have := this.2 r hr' hd'; exact ⟨by simp [this.1], this.2⟩

/-- Giving up. -/
theorem Inv.drops {out : List Msg} {tr : List Item} (now : Time) (h : Inv out tr) (hnow : clock tr = now) (ssis : List Nat)
    (hsrc : ∀ ssi ∈ ssis, ∃ m ∈ out, m.addr.ssi = ssi ∧ m.timedOut now = true ∧ ¬ m.count < 3)
    (hnd : ssis.Nodup) {out' : List Msg} {es : List Emit} (he : dropAll out ssis = .ok (out', es)) :
    Inv out' (tr ++ es.map .out) := by
  induction ssis generalizing out tr es with
  | nil => simp [dropAll] at he; obtain ⟨rfl, rfl⟩ := he; simpa using h
  | cons ssi ssis ih =>
    simp only [dropAll] at he
    split at he
    · cases he
    · rename_i m rest htake
      simp only [Res.bind_eq_ok] at he
      obtain ⟨c, _, ⟨out1, es1⟩, h1, h2⟩ := he
      cases h2
      obtain ⟨l1, l2, rfl, rfl, hs, hsub⟩ := takeOutstanding_some htake
      obtain ⟨x, hx, hxs, hxt, hxc⟩ := hsrc ssi (by simp)
      have hxsub := (timedOut_spec (h.ent x hx) (by rw [hnow]; exact hxt)).2.1
      have hxm : x = m := h.one hx (by simp) hxsub hsub (by rw [hxs, hs])
      subst hxm
      have hent := h.ent x (by simp)
      obtain ⟨hw, _, _⟩ := timedOut_spec hent (by rw [hnow]; exact hxt)
      have h4 : sends tr x.id = 4 := by rw [hent.sent hsub]; have := hent.count; omega
      have hinv := h.remove (o := .lost x.id) (.inr rfl) ⟨h4, hent.open_, hw⟩
      have := ih hinv (by rw [← hnow]; exact clock_append _ _ (by simp)) ?_ (List.nodup_cons.1 hnd).2 h1
      · simpa using this
      · intro s hs'
        obtain ⟨y, hy, hys, hyt⟩ := hsrc s (by simp [hs'])
        refine ⟨y, ?_, hys, hyt⟩
        have hne : y ≠ x := by
          intro e; subst e
          have : s = ssi := by rw [← hys, hxs]
          rw [this] at hs'
          exact (List.nodup_cons.1 hnd).1 hs'
        rw [List.mem_append, List.mem_cons] at hy
        rw [List.mem_append]
        rcases hy with hy | hy | hy
        · exact .inl hy
        · exact absurd hy hne
        · exact .inr hy

/-- Sending what is free. -/
theorem Inv.frees {out : List Msg} (done : List Msg) {tr : List Item} (blocked : List Nat) (h : Inv (done ++ out) tr)
    (hb : ∀ m ∈ done, m.addr.ssi ∈ blocked) :
    Inv (done ++ (sendFree blocked out).1) (tr ++ (sendFree blocked out).2.map .out) := by
  induction out generalizing done tr blocked with
  | nil => simpa [sendFree] using h
  | cons m out ih =>
    unfold sendFree
    by_cases hs : m.submitted = true
    · simp only [hs, if_true]
      have := ih (done ++ [m]) (m.addr.ssi :: blocked) (by simpa using h) (by
        intro a ha; rw [List.mem_append] at ha
        rcases ha with ha | ha
        · simp [hb a ha]
        · simp at ha; simp [ha])
      simpa using this
    · rw [Bool.not_eq_true] at hs
      simp only [hs, Bool.false_eq_true, if_false]
      by_cases hc : blocked.contains m.addr.ssi = true
      · simp only [hc, if_true]
        have := ih (done ++ [m]) blocked (by simpa using h) (by
          intro a ha; rw [List.mem_append] at ha
          rcases ha with ha | ha
          · exact hb a ha
          · simp at ha; subst ha; simpa using hc)
        simpa using this
      · simp only [hc, Bool.false_eq_true, if_false]
        have hent := h.ent m (by simp)
        have hfree : ∀ a ∈ done, a.addr.ssi ≠ m.addr.ssi := by
          intro a ha e
          have := hb a ha
          rw [e] at this
          exact hc (by simpa using this)
        have h0 := hent.fresh hs
        have hfine : Fine tr m.emit := m.emit_fine hent (by omega) (h.older hfree) (by omega)
        have hinv : Inv (done ++ m.submit :: out) (tr ++ [.out m.emit]) := by
          refine h.replace (m' := m.submit) rfl rfl (fun _ => .inr hfree) ?_ ?_ (by simp [Reported, Msg.emit]) (by simp [reqs, Item.req, Msg.emit])
            (good_snoc h.good fun o e => by cases e; exact hfine) (msg_phase_emit m tr).1 (msg_phase_emit m tr).2.1
          · have := hent.submit 0 (by omega) h0.1
            have e : { m.submit with count := 0 } = m.submit := by simp [Msg.submit, h0.2.1]
            rw [e] at this; exact this
          · intro b hb; simp [sends, Item.isSend, Msg.emit]; exact Ne.symm hb
        have := ih (done ++ [m.submit]) (tr := tr ++ [.out m.emit]) (m.addr.ssi :: blocked) (by simpa using hinv) (by
          intro a ha; rw [List.mem_append] at ha
          rcases ha with ha | ha
          · simp [hb a ha]
          · simp at ha; simp [ha, Msg.submit])
        simpa using this

theorem Inv.quiets {out : List Msg} {tr : List Item} (h : Inv out tr) (es : List Emit) (hq : ∀ e ∈ es, (Item.out e).quiet = true) :
    Inv out (tr ++ es.map .out) := by
  induction es generalizing tr with
  | nil => simpa using h
  | cons e es ih =>
    have := ih (h.quiet (hq e (by simp))) (fun x hx => hq x (by simp [hx]))
    simpa using this

/-- The rest of the state and the trace. -/
structure Rel (s : Llc) (tr : List Item) : Prop where
  inv : Inv s.out tr
  now : s.now = clock tr
  next : s.nextId = (reqs tr).length
  seq : ∀ ssi, s.nextSeq ssi = parity (reqs tr) ssi

theorem rel_init : Rel Llc.init [] := by
  refine ⟨⟨List.Pairwise.nil, List.Pairwise.nil, by simp [Llc.init], by simp [reqs], good_nil, by simp [Llc.init]⟩, rfl, rfl, ?_⟩
  intro ssi; simp [Llc.nextSeq, Llc.init, parity, reqs]

theorem reqs_outs (tr : List Item) (es : List Emit) : reqs (tr ++ es.map .out) = reqs tr := by
  rw [reqs_append]
  have : reqs (es.map .out) = [] := by
    rw [reqs, List.filterMap_eq_nil_iff]
    intro i hi
    rw [List.mem_map] at hi
    obtain ⟨e, _, rfl⟩ := hi
    rfl
  rw [this, List.append_nil]

theorem rel_ack {s : Llc} {tr : List Item} (h : Rel s (tr)) (addr : Addr) (ts : Nat) (pdu : List Bool) (nr : Bool) (acks : List OwedAck)
    (hnr : ackIn pdu = some nr) {s' : Llc} {es : List Emit}
    (he : ({ s with acks := acks } : Llc).processAck addr.ssi nr = .ok (s', es)) :
    Rel s' (tr ++ [.ev (.ind addr ts pdu)] ++ es.map .out) := by
  have hq := h.inv.quiet (i := .ev (.ind addr ts pdu)) rfl
  have hreq : reqs (tr ++ [.ev (.ind addr ts pdu)]) = reqs tr := by rw [reqs_append]; simp [reqs, Item.req]
  have hclk : clock (tr ++ [.ev (.ind addr ts pdu)]) = clock tr := clock_append _ _ (by simp)
  have hkeep : ∀ out, Inv out (tr ++ [.ev (.ind addr ts pdu)]) → Rel { s with acks := acks, out := out } (tr ++ [.ev (.ind addr ts pdu)]) :=
    fun out hi => ⟨hi, by rw [hclk]; exact h.now, by rw [hreq]; exact h.next, by rw [hreq]; exact h.seq⟩
  unfold Llc.processAck at he
  split at he
  · cases he; simpa using hkeep _ hq
  · rename_i m rest htake
    simp only at htake
    obtain ⟨l1, l2, hout, rfl, hs, hsub⟩ := takeOutstanding_some htake
    rw [hout] at hq
    split at he
    · cases he; simpa using hkeep _ (hq.front hsub)
    · rename_i hdone
      split at he
      · rename_i hns
        simp only [Res.bind_eq_ok] at he
        obtain ⟨c, hc, he⟩ := he
        cases he
        have hent := h.inv.ent m (by rw [hout]; simp)
        have hent' := hq.ent m (by simp)
        have hraw : m.cell.raw = 2 := by
          simp only [Cell.markAcknowledged, Res.bind_eq_ok, Cell.mark] at hc
          obtain ⟨_, _, hc⟩ := hc
          split at hc
          · rename_i hh; simpa [TxState.raw] using hh
          · cases hc
        obtain ⟨t, ht⟩ : ∃ t, m.tDone = some t := by
          cases htd : m.tDone with
          | none => exact absurd htd hdone
          | some t => exact ⟨t, rfl⟩
        obtain ⟨p1, p2, hl, hl2, _⟩ := hent.last hsub
        have hfine : Fine (tr ++ [.ev (.ind addr ts pdu)]) (.acknowledged m.id) := by
          refine ⟨hent'.open_, tr, addr, ts, pdu, _, rfl, hent'.req, hs.symm, ?_, ⟨t, (hent.done t ht).1⟩, p1, p2, hl, hl2 hraw⟩
          rw [hnr, ← hns]
          exact congrArg some hent'.ns
        have hi := hq.remove (o := .acknowledged m.id) (.inl rfl) hfine
        have hreq2 : reqs (tr ++ [.ev (.ind addr ts pdu)] ++ [.out (.acknowledged m.id)]) = reqs tr := by
          rw [reqs_append, hreq]; simp [reqs, Item.req]
        have hclk2 : clock (tr ++ [.ev (.ind addr ts pdu)] ++ [.out (.acknowledged m.id)]) = clock tr := by
          rw [clock_append _ _ (by simp), hclk]
        exact ⟨hi, by rw [List.map_cons, List.map_nil, hclk2]; exact h.now, by rw [List.map_cons, List.map_nil, hreq2]; exact h.next,
          by rw [List.map_cons, List.map_nil, hreq2]; exact h.seq⟩
      · cases he; simpa using hkeep _ (hq.front hsub)

theorem parseBl_ack {k : Kind} {bs : List Bool} (hk : kindOf bs = some k) {f : Bool} {ns : Option Bool} {nr : Bool} {body : List Bool}
    (h : parseBl k bs = some (f, ns, some nr, body)) : ackIn bs = some nr := by
  match bs with
  | [] => simp [kindOf] at hk
  | [a] => cases a <;> simp [kindOf] at hk
  | [a, b] => cases a <;> simp [kindOf] at hk
  | [a, b, c] => cases a <;> cases b <;> cases c <;> simp [kindOf] at hk
  | a :: b :: c :: d :: r =>
    cases a <;> cases b <;> cases c <;> cases d <;> simp [kindOf] at hk <;> subst hk <;>
      simp [parseBl, BlAdata.dec, BlData.dec, BlUdata.dec, BlAck.dec, rdHead_run] at h
    all_goals
      rcases r with _ | ⟨x, _ | ⟨y, r⟩⟩ <;> simp_all [Verif.Codec.Rd.flag, ackIn]

theorem rel_quiet {s : Llc} {tr : List Item} (h : Rel s tr) (e : Ev) (he : (Item.ev e).quiet = true)
    (ht : ∀ t, e ≠ .tickStart t) (acks : List OwedAck) (udata : List (Via × List Bool)) :
    Rel { s with acks := acks, udata := udata } (tr ++ [.ev e]) := by
  have hreq : reqs (tr ++ [.ev e]) = reqs tr := by
    rw [reqs_append]; simp [reqs, (quiet_facts he).1]
  refine ⟨h.inv.quiet he, ?_, by rw [hreq]; exact h.next, by rw [hreq]; exact h.seq⟩
  rw [clock_append _ _ (by intro t hh; simp at hh; exact ht t hh.symm)]; exact h.now

theorem rel_outs {s : Llc} {tr : List Item} (h : Rel s tr) (es : List Emit) (hq : ∀ e ∈ es, (Item.out e).quiet = true) :
    Rel s (tr ++ es.map .out) :=
  ⟨h.inv.quiets es hq, by rw [clock_emits]; exact h.now, by rw [reqs_outs]; exact h.next, by rw [reqs_outs]; exact h.seq⟩

theorem rel_ind {s : Llc} {tr : List Item} (h : Rel s tr) (addr : Addr) (ts : Nat) (pdu : List Bool) {s' : Llc} {es : List Emit}
    (he : s.unitdataInd addr ts pdu = .ok (s', es)) : Rel s' (tr ++ [.ev (.ind addr ts pdu)] ++ es.map .out) := by
  have hsame : Rel s (tr ++ [.ev (.ind addr ts pdu)]) := rel_quiet h _ rfl (by simp) s.acks s.udata
  have hbl : ∀ k, kindOf pdu = some k → s.rxBl k addr ts pdu = .ok (s', es) →
      Rel s' (tr ++ [.ev (.ind addr ts pdu)] ++ es.map .out) := by
    intro k hk he
    unfold Llc.rxBl at he
    split at he
    · cases he; simpa using hsame
    · rename_i f ns nr body hp
      rw [Res.bind_eq_ok] at he
      obtain ⟨good, _, he⟩ := he
      cases good with
      | false => simp at he; obtain ⟨rfl, rfl⟩ := he; simpa using hsame
      | true =>
        simp only [if_true, Llc.acceptBl, Res.bind_eq_ok] at he
        obtain ⟨⟨s1, es1⟩, h1, he⟩ := he
        obtain ⟨acks, hacks⟩ : ∃ acks, s.owe addr ts ns = { s with acks := acks } := by
          cases ns with
          | none => exact ⟨s.acks, rfl⟩
          | some n => exact ⟨_, rfl⟩
        rw [hacks] at h1
        have hrel : Rel s1 (tr ++ [.ev (.ind addr ts pdu)] ++ es1.map .out) := by
          cases nr with
          | none =>
            cases h1
            simpa using rel_quiet h (.ind addr ts pdu) rfl (by simp) acks s.udata
          | some nr => exact rel_ack h addr ts pdu nr acks (parseBl_ack hk hp) h1
        cases he
        have := rel_outs hrel (deliver k addr ts f body) (by
          intro e he; unfold deliver at he; split at he
          · cases he
          · simp at he; subst he; rfl)
        simpa using this
  unfold Llc.unitdataInd at he
  split at he
  · cases he; simpa using hsame
  · cases he; simpa using hsame
  · cases he
  · exact hbl _ ‹_› he

theorem rel_tickEnd {s : Llc} {tr : List Item} (h : Rel s tr) {s' : Llc} {es : List Emit} (he : s.tickEnd = .ok (s', es)) :
    Rel s' (tr ++ [.ev .tickEnd] ++ es.map .out) := by
  have hc0 : clock (tr ++ [.ev .tickEnd]) = clock tr := clock_append _ _ (by simp)
  have hreq0 : reqs (tr ++ [.ev .tickEnd]) = reqs tr := by rw [reqs_append]; simp [reqs, Item.req]
  simp only [Llc.tickEnd, Llc.retransmit, Res.bind_eq_ok] at he
  obtain ⟨⟨s1, es1⟩, ⟨⟨d1, d2⟩, hd, h1⟩, he⟩ := he
  cases h1; cases he
  -- notice, retry
  have hnote := h.inv.note
  rw [← h.now] at hnote
  have hmap : (s.out.map fun m => m.noteDone s.now).map (fun m => m.retry s.now) = s.out.map fun m => m.retry s.now := by
    rw [List.map_map]; apply List.map_congr_left
    intro m _
    simp only [Function.comp, Msg.retry, noteDone_noteDone]
  have hret := Inv.retries (out := s.out.map fun m => m.noteDone s.now) [] s.now (by simpa using hnote)
    (by rw [hc0]; exact h.now.symm) (by
      intro m hm; rw [List.mem_map] at hm; obtain ⟨m, _, rfl⟩ := hm; exact noteDone_noteDone _ _)
  rw [hmap] at hret
  simp only [List.nil_append] at hret
  obtain ⟨hret, hgive⟩ := hret
  have hclk1 : clock (tr ++ [.ev .tickEnd] ++ ((s.out.map fun m => m.retry s.now).map fun r => r.2.1).flatten.map .out) = s.now := by
    rw [clock_emits, hc0]; exact h.now.symm
  -- give up
  have hin : ∀ r ∈ s.out.map fun m => m.retry s.now, r.1 ∈ (s.out.map fun m => m.retry s.now).map fun r => r.1 :=
    fun r hr => List.mem_map_of_mem hr
  have hdrop := hret.drops s.now hclk1 _ (by
    intro ssi hssi
    rw [List.mem_map] at hssi
    obtain ⟨r, hr, rfl⟩ := hssi
    rw [List.mem_filter] at hr
    exact ⟨r.1, hin r hr.1, rfl, (hgive r hr.1 hr.2).2⟩) (by
    -- at most one outstanding message per station
    rw [List.Nodup, List.pairwise_map]
    have hp : (s.out.map fun m => m.retry s.now).Pairwise fun a b =>
        a.1.addr.ssi = b.1.addr.ssi → a.1.id < b.1.id ∧ b.1.submitted = false := by
      have := hret.ord; rw [List.pairwise_map] at this; exact this
    have hf := List.Pairwise.filter (fun r => r.2.2) hp
    refine List.Pairwise.imp_of_mem ?_ hf
    intro a b _ hb hab he
    rw [List.mem_filter] at hb
    have hsub := (timedOut_spec (hret.ent b.1 (hin b hb.1)) (by rw [hclk1]; exact (hgive b hb.1 hb.2).2.1)).2.1
    rw [(hab he).2] at hsub; cases hsub) hd
  -- send what is free, acknowledge, send unacknowledged data
  have hfree := Inv.frees [] [] (by simpa using hdrop) (by simp)
  simp only [List.nil_append] at hfree
  have hlast := (hfree.quiets (s.acks.map OwedAck.emit) (by
    intro e he; rw [List.mem_map] at he; obtain ⟨a, _, rfl⟩ := he; rfl)).quiets (s.udata.map fun u => .udata u.1 u.2) (by
    intro e he; rw [List.mem_map] at he; obtain ⟨a, _, rfl⟩ := he; rfl)
  refine ⟨?_, ?_, ?_, ?_⟩
  · simpa [List.append_assoc] using hlast
  · rw [clock_emits, hc0]; exact h.now
  · rw [reqs_outs, hreq0]; exact h.next
  · rw [reqs_outs, hreq0]; exact h.seq

theorem rel_mac {s : Llc} {tr : List Item} (h : Rel s tr) (id : Nat) (d : Bool) :
    Rel { s with out := s.out.map fun m => m.report id d } (tr ++ [.ev (.mac id d)]) := by
  have hreq : reqs (tr ++ [.ev (.mac id d)]) = reqs tr := by rw [reqs_append]; simp [reqs, Item.req]
  have hc : ∀ m : Msg, (m.report id d).id = m.id ∧ (m.report id d).addr = m.addr ∧ (m.report id d).submitted = m.submitted := by
    intro m; unfold Msg.report; split <;> simp
  refine ⟨?_, by rw [clock_append _ _ (by simp)]; exact h.now, by rw [hreq]; exact h.next, by rw [hreq]; exact h.seq⟩
  refine h.inv.mapEntries _ (fun m => (hc m).1) (fun m => (hc m).2.1) (fun m => (hc m).2.2) ?_ (by simp [sends, Item.isSend])
    (by simp [Reported]) (by simp [reqs, Item.req]) (good_snoc h.inv.good (by simp)) ?_
  rotate_left
  · intro m hm
    rw [phase_snoc, ← h.inv.ph m hm]
    have h0 := h.inv.ent m hm
    unfold Msg.report
    split
    · rename_i hcond
      obtain ⟨rfl, hsub, hraw⟩ := hcond
      have hr0 : m.cell.raw = 0 := hraw
      have htd : m.tDone = none := by
        cases ht : m.tDone with
        | none => rfl
        | some t => exact absurd hr0 (h0.done t ht).2
      cases d <;> simp [Msg.phase, hsub, htd, hr0, Phase.next, TxState.raw]
    · rename_i hcond
      have : ¬ (id = m.id ∧ m.phase = .sent) := by
        rintro ⟨rfl, hp⟩
        apply hcond
        unfold Msg.phase at hp
        split at hp
        · cases hp
        · rename_i hs
          rw [Bool.not_eq_false] at hs
          cases ht : m.tDone with
          | some t => simp [ht] at hp
          | none =>
            simp only [ht] at hp
            split at hp
            · exact ⟨rfl, hs, by assumption⟩
            · cases hp
      simp [Phase.next, this]
  intro m hm he
  have h0 := h.inv.ent m hm
  unfold Msg.report
  split
  · rename_i hcond
    obtain ⟨rfl, hsub, hraw⟩ := hcond
    refine ⟨he.req, he.ns, he.open_, he.count, he.sent, ?_, ?_, ?_, ?_⟩
    · intro hs; simp [hsub] at hs
    · cases d <;> simp [TxState.raw]
    · intro _
      obtain ⟨p1, p2, h1, _, _⟩ := h0.last hsub
      refine ⟨p1, p2 ++ [.ev (.mac m.id d)], lastSend_append h1 _ (by simp [sends, Item.isSend]), ?_, ?_⟩
      · intro hr; cases d
        · simp
        · simp [TxState.raw] at hr
      · intro hr; cases d
        · simp [TxState.raw] at hr
        · simp
    · intro t ht
      have := (h0.done t ht).2
      simp [TxState.raw] at hraw; contradiction
  · exact he

theorem rel_req {s : Llc} {tr : List Item} (h : Rel s tr) (addr : Addr) (ts : Nat) (st fcs ea : Bool) (sdu : List Bool) {s' : Llc}
    (he : s.dataReq addr ts st fcs ea sdu = .ok s') : Rel s' (tr ++ [.ev (.dataReq addr ts st fcs ea sdu)]) := by
  unfold Llc.dataReq at he
  split at he
  · cases he
  · cases he
    have hreq : reqs (tr ++ [.ev (.dataReq addr ts st fcs ea sdu)]) = reqs tr ++ [⟨addr, ts, fcs, sdu⟩] := by
      rw [reqs_append]; simp [reqs, Item.req]
    have hs0 : ∀ b, sends [.ev (.dataReq addr ts st fcs ea sdu)] b = 0 := by simp [sends, Item.isSend]
    have hr0 : ∀ b, ¬ Reported [.ev (.dataReq addr ts st fcs ea sdu)] b := by simp [Reported]
    have hlt : ∀ m ∈ s.out, m.id < s.nextId := by
      intro m hm
      have := (h.inv.ent m hm).req
      rw [List.getElem?_eq_some_iff] at this
      rw [h.next]; exact this.1
    -- nothing has been said about the new number yet
    have hnew : sends tr s.nextId = 0 ∧ ¬ Reported tr s.nextId := by
      have hbound : ∀ pre o post, tr = pre ++ .out o :: post → (o = .acknowledged s.nextId ∨ o = .lost s.nextId ∨ ∃ a t p, o = .data s.nextId a t p) → False := by
        intro pre o post e ho
        have hf := h.inv.good pre o post e
        have hlen : (reqs pre).length ≤ s.nextId := by
          rw [h.next, e, reqs_append]; simp
        have key : ∀ r : Req, ¬ (reqs pre)[s.nextId]? = some r := by
          intro r hr; rw [List.getElem?_eq_some_iff] at hr; obtain ⟨hr, _⟩ := hr; omega
        rcases ho with rfl | rfl | ⟨a, t, p, rfl⟩
        · obtain ⟨_, p, _, _, _, r, _, hr, _⟩ := hf; exact key r hr
        · obtain ⟨_, _, t, ⟨p1, p2, q1, q2, ⟨i, hi, he', _⟩, _⟩, _⟩ := hf
          -- the message was sent before, which needs a request
          cases i with
          | ev e => simp [Item.isSend] at hi
          | out o =>
            cases o <;> simp [Item.isSend] at hi
            subst hi
            rename_i a t p
            have hf2 := h.inv.good p1 (.data s.nextId a t p) (p2 ++ .out (.lost s.nextId) :: post) (by rw [e, he']; simp)
            obtain ⟨r, hr, _⟩ := hf2
            rw [List.getElem?_eq_some_iff] at hr
            have : (reqs p1).length ≤ (reqs pre).length := by rw [he', reqs_append]; simp
            obtain ⟨hr, _⟩ := hr; omega
        · obtain ⟨r, hr, _⟩ := hf; exact key r hr
      constructor
      · unfold sends
        rw [List.countP_eq_zero]
        intro i hi hs
        rw [List.mem_iff_append] at hi
        obtain ⟨pre, post, e⟩ := hi
        cases i with
        | ev e => simp [Item.isSend] at hs
        | out o =>
          cases o <;> simp [Item.isSend] at hs
          subst hs
          exact hbound pre _ post e (.inr (.inr ⟨_, _, _, rfl⟩))
      · rintro (hh | hh)
        · rw [List.mem_iff_append] at hh
          obtain ⟨pre, post, e⟩ := hh
          exact hbound pre _ post e (.inl rfl)
        · rw [List.mem_iff_append] at hh
          obtain ⟨pre, post, e⟩ := hh
          exact hbound pre _ post e (.inr (.inl rfl))
    have hget : (reqs tr ++ [(⟨addr, ts, fcs, sdu⟩ : Req)])[s.nextId]? = some ⟨addr, ts, fcs, sdu⟩ := by
      rw [h.next, List.getElem?_append_right (Nat.le_refl _)]; simp
    have htake : (reqs tr ++ [(⟨addr, ts, fcs, sdu⟩ : Req)]).take s.nextId = reqs tr := by
      rw [h.next, List.take_append_of_le_length (Nat.le_refl _), List.take_length]
    have hph : ∀ m ∈ s.out ++ [⟨s.nextId, addr, s.nextSeq addr.ssi, (takeAck ts addr.ssi s.acks).1, fcs, sdu, ts, false, none,
        ⟨ea, TxState.pending.raw⟩, 0⟩], m.phase = phase (tr ++ [.ev (.dataReq addr ts st fcs ea sdu)]) m.id := by
      intro m hm
      rw [List.mem_append] at hm
      rw [phase_snoc]
      rcases hm with hm | hm
      · exact h.inv.ph m hm
      · simp at hm; subst hm
        simp only
        rw [phase_unsent hnew.1]; rfl
    refine ⟨⟨?_, ?_, ?_, ?_, ?_, hph⟩, ?_, ?_, ?_⟩
    · rw [List.pairwise_append]
      refine ⟨h.inv.ord, List.pairwise_singleton _ _, ?_⟩
      intro a ha b hb _
      simp at hb; subst hb
      exact ⟨hlt a ha, rfl⟩
    · rw [List.pairwise_append]
      refine ⟨h.inv.uniq, List.pairwise_singleton _ _, ?_⟩
      intro a ha b hb
      simp at hb; subst hb
      have := hlt a ha; simp only; omega
    · intro m hm
      rw [List.mem_append] at hm
      rcases hm with hm | hm
      · exact (h.inv.ent m hm).mono _ (hs0 _) (hr0 _)
      · simp at hm; subst hm
        refine ⟨by rw [hreq]; exact hget, ?_, ?_, by simp, by simp, ?_, by simp [TxState.raw], by simp, by simp⟩
        · rw [hreq]; simp only; rw [htake]; exact h.seq _
        · rw [reported_append]; exact fun hh => hh.elim hnew.2 (hr0 _)
        · intro _; simp only; rw [sends_append, hs0, hnew.1]; simp [TxState.raw]
    · intro k hk
      rw [hreq] at hk
      rw [reported_append]
      by_cases hkn : k = s.nextId
      · exact .inr ⟨_, List.mem_append_right _ List.mem_cons_self, hkn.symm⟩
      · have hk' : k < (reqs tr).length := by rw [h.next] at hkn; simp at hk; omega
        rcases h.inv.all k hk' with hh | ⟨m, hm, e⟩
        · exact .inl (.inl hh)
        · exact .inr ⟨m, by simp [hm], e⟩
    · exact good_snoc h.inv.good (by simp)
    · rw [clock_append _ _ (by simp)]; exact h.now
    · rw [hreq]; simp [h.next]
    · intro ssi
      rw [hreq]
      have hp := h.seq ssi
      unfold Llc.nextSeq parity at *
      simp only [List.countP_append, List.countP_singleton]
      by_cases hs : addr.ssi = ssi
      · subst hs
        simp only [Assoc.get_insert_self, Option.getD_some, hp, beq_self_eq_true, if_true]
        generalize List.countP _ (reqs tr) = n
        by_cases hn : n % 2 = 1
        · have : ¬ (n + 1) % 2 = 1 := by omega
          simp [hn, this]
        · have : (n + 1) % 2 = 1 := by omega
          simp [hn, this]
      · rw [Assoc.get_insert_ne _ hs, hp]
        simp [hs]

theorem rel_step {s : Llc} {tr : List Item} (h : Rel s tr) (e : Ev) {s' : Llc} {es : List Emit} (he : s.step e = .ok (s', es)) :
    Rel s' (tr ++ [.ev e] ++ es.map .out) := by
  cases e with
  | dataReq addr ts st fcs ea sdu =>
    simp only [Llc.step, Res.bind_eq_ok] at he
    obtain ⟨s1, h1, h2⟩ := he
    cases h2
    simpa using rel_req h addr ts st fcs ea sdu h1
  | unitdataReq addr sdu =>
    cases he
    simpa [Llc.unitdataReq] using rel_quiet h (.unitdataReq addr sdu) rfl (by simp) s.acks (s.udata ++ [(addr, [false, false, true, false] ++ sdu)])
  | ind addr ts pdu => exact rel_ind h addr ts pdu he
  | mac id d => cases he; simpa using rel_mac h id d
  | tickStart t =>
    cases he
    have hreq : reqs (tr ++ [.ev (.tickStart t)]) = reqs tr := by rw [reqs_append]; simp [reqs, Item.req]
    have : Rel { s with now := t } (tr ++ [.ev (.tickStart t)]) :=
      ⟨h.inv.quiet rfl, (clock_tick tr t).symm, by rw [hreq]; exact h.next, by rw [hreq]; exact h.seq⟩
    simpa using this
  | tickEnd => exact rel_tickEnd h he

theorem rel_run {s : Llc} {tr : List Item} (h : Rel s tr) (evs : List Ev) {s' : Llc} {tr' : List Item}
    (he : s.run evs = .ok (s', tr')) : Rel s' (tr ++ tr') := by
  induction evs generalizing s tr tr' with
  | nil => simp [Llc.run] at he; obtain ⟨rfl, rfl⟩ := he; simpa using h
  | cons e evs ih =>
    simp only [Llc.run, Res.bind_eq_ok] at he
    obtain ⟨⟨s1, es⟩, h1, ⟨s2, tr2⟩, h2, h3⟩ := he
    cases h3
    have := ih (rel_step h e h1) h2
    simpa using this

end Verif.Llc
