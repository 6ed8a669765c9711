import Verif.Llc.AckProps
/-!
# The acknowledged service over a radio link: what a station gets of what it is sent

The LLC (C26) with a radio link, which may lose frames but does not change their order, and a station. The station is a specification, not
code: it takes a frame which has the sequence number of the frame before for a repetition, and acknowledges what it has received as often
as it likes.
-/
namespace Verif.Llc
open Verif.Tdma
open Verif.Umac (Addr)

/-- What a station reads in a frame of the acknowledged service (BL-DATA or BL-ADATA): the sequence number and the message. -/
def numberIn : List Bool → Option (Bool × List Bool)
  | false :: _ :: false :: true :: ns :: m => some (ns, m)
  | false :: _ :: false :: false :: _ :: ns :: m => some (ns, m)
  | _ => none

/-- The way between the LLC and a station: the frames on the way down (with the number of the message, which the station does not see), the
frames on the way up, the sequence number the station received last, and the messages it has passed up. -/
structure Way where
  down : List (Nat × List Bool)
  up : List (List Bool)
  last : Option Bool
  got : List (Nat × List Bool)

/-- A station receives a frame. -/
def Way.hear (w : Way) (b : Nat) (pdu : List Bool) : Way :=
  match numberIn pdu with
  | none => w
  | some (ns, m) => if w.last = some ns then w else { w with last := some ns, got := w.got ++ [(b, m)] }

/-- The frames of the acknowledged service for a station in an entry of a trace. -/
def Item.frames (x : Nat) : Item → List (Nat × List Bool)
  | .out (.data b a _ pdu) => if a.ssi = x then [(b, pdu)] else []
  | _ => []

/-- An entry of a trace: the LLC gets an acknowledgement of station `x`. -/
def Item.answers (x : Nat) : Item → Prop
  | .ev (.ind a _ pdu) => a.ssi = x ∧ ackIn pdu ≠ none
  | _ => False

/-- The histories of the LLC together with the radio link and station `x`: acknowledgements of the station come from the station, in
order, and each is received once or lost. -/
inductive Link (x : Nat) : List Item → Way → Prop
  | start : Link x [] ⟨[], [], none, []⟩
  /-- something happens to the LLC, or it does something -/
  | item {tr w} (h : Link x tr w) (i : Item) (hi : ¬ i.answers x) : Link x (tr ++ [i]) { w with down := w.down ++ i.frames x }
  /-- the LLC gets an acknowledgement of the station -/
  | answer {tr down p up last got} (h : Link x tr ⟨down, p :: up, last, got⟩) (a : Addr) (ts : Nat) (ha : a.ssi = x) :
    Link x (tr ++ [.ev (.ind a ts p)]) ⟨down, up, last, got⟩
  /-- the station acknowledges what it received last -/
  | say {tr w} (h : Link x tr w) (nr : Bool) (p : List Bool) (hl : w.last = some nr) (hp : ackIn p = some nr) :
    Link x tr { w with up := w.up ++ [p] }
  /-- the station receives the next frame -/
  | hear {tr b pdu down up last got} (h : Link x tr ⟨(b, pdu) :: down, up, last, got⟩) :
    Link x tr (Way.hear ⟨down, up, last, got⟩ b pdu)
  /-- a frame is lost on the way down, or on the way up -/
  | fade {tr d1 f d2 up last got} (h : Link x tr ⟨d1 ++ f :: d2, up, last, got⟩) : Link x tr ⟨d1 ++ d2, up, last, got⟩
  | fadeUp {tr down u1 p u2 last got} (h : Link x tr ⟨down, u1 ++ p :: u2, last, got⟩) : Link x tr ⟨down, u1 ++ u2, last, got⟩

/-- Request `b` is for station `x`. -/
def For (rs : List Req) (x b : Nat) : Prop := ∃ r, rs[b]? = some r ∧ r.addr.ssi = x

theorem For.lt {rs : List Req} {x b : Nat} (h : For rs x b) : b < rs.length := by
  obtain ⟨r, h, _⟩ := h
  rw [List.getElem?_eq_some_iff] at h
  exact h.1

theorem For.more {rs : List Req} {x b : Nat} (h : For rs x b) (e : List Req) : For (rs ++ e) x b := by
  obtain ⟨r, h1, h2⟩ := h
  exact ⟨r, (getElem?_append_some h1 e).1, h2⟩

theorem For.less {rs e : List Req} {x b : Nat} (h : For (rs ++ e) x b) (hb : b < rs.length) : For rs x b := by
  obtain ⟨r, h1, h2⟩ := h
  rw [List.getElem?_append_left hb] at h1
  exact ⟨r, h1, h2⟩

theorem take_more {rs : List Req} {b : Nat} (e : List Req) (hb : b ≤ rs.length) : (rs ++ e).take b = rs.take b := by
  rw [List.take_append_of_le_length hb]

theorem parity_succ {rs : List Req} {x n : Nat} :
    (For rs x n → parity (rs.take (n + 1)) x = !parity (rs.take n) x) ∧ (¬ For rs x n → parity (rs.take (n + 1)) x = parity (rs.take n) x) := by
  by_cases hn : n < rs.length
  · have e : rs.take (n + 1) = rs.take n ++ [rs[n]] := by rw [List.take_add_one]; simp [hn]
    rw [e]
    unfold parity
    rw [List.countP_append, List.countP_singleton]
    refine ⟨fun ⟨r, h1, h2⟩ => ?_, fun h => ?_⟩
    · rw [List.getElem?_eq_getElem hn] at h1
      cases h1
      rw [if_pos (by simpa using h2)]
      generalize List.countP _ _ = k
      by_cases hk : k % 2 = 1
      · rw [decide_eq_false (by omega : ¬ (k + 1) % 2 = 1), decide_eq_true hk]; rfl
      · rw [decide_eq_true (by omega : (k + 1) % 2 = 1), decide_eq_false hk]; rfl
    · rw [if_neg]
      · rfl
      · intro h2
        exact h ⟨rs[n], List.getElem?_eq_getElem hn, by simpa using h2⟩
  · refine ⟨fun h => absurd h.lt hn, fun _ => ?_⟩
    rw [List.take_of_length_le (by omega), List.take_of_length_le (by omega)]

theorem parity_same {rs : List Req} {x a b : Nat} (hab : a ≤ b) (h : ∀ c, a ≤ c → c < b → ¬ For rs x c) :
    parity (rs.take b) x = parity (rs.take a) x := by
  induction b with
  | zero => rw [show a = 0 by omega]
  | succ n ih =>
    by_cases e : a = n + 1
    · rw [e]
    · rw [parity_succ.2 (h n (by omega) (by omega)), ih (by omega) fun c h1 h2 => h c h1 (by omega)]

theorem parity_next {rs : List Req} {x a b : Nat} (hab : a < b) (ha : For rs x a) (h : ∀ c, a < c → c < b → ¬ For rs x c) :
    parity (rs.take b) x = !parity (rs.take a) x := by
  rw [parity_same (show a + 1 ≤ b from hab) fun c h1 h2 => h c h1 h2, parity_succ.1 ha]

theorem sends_split {tr : List Item} {b : Nat} (h : 0 < sends tr b) :
    ∃ p a ts pdu q, tr = p ++ .out (.data b a ts pdu) :: q := by
  unfold sends at h
  obtain ⟨i, hi, hs⟩ := List.countP_pos_iff.1 h
  obtain ⟨p, q, rfl⟩ := List.append_of_mem hi
  cases i with
  | ev e => simp [Item.isSend] at hs
  | out o =>
    cases o with
    | data id a ts pdu =>
      simp only [Item.isSend, beq_iff_eq] at hs
      subst hs
      exact ⟨p, a, ts, pdu, q, rfl⟩
    | _ => simp [Item.isSend] at hs

theorem Reported.more {tr : List Item} {a : Nat} (h : Reported tr a) (e : List Item) : Reported (tr ++ e) a := by
  rcases h with h | h
  · exact .inl (List.mem_append_left _ h)
  · exact .inr (List.mem_append_left _ h)

theorem Good.prefix {a b : List Item} (h : Good (a ++ b)) : Good a := by
  intro pre o post e
  exact h pre o (post ++ b) (by rw [e]; simp)

/-- What was sent before was sent after all earlier messages to the station were done with. -/
theorem sent_done {tr : List Item} (hg : Good tr) {b : Nat} (hs : 0 < sends tr b) {x : Nat} (hx : For (reqs tr) x b) {a : Nat} (ha : For (reqs tr) x a)
    (hab : a < b) : Reported tr a := by
  obtain ⟨p, ad, ts, pdu, q, rfl⟩ := sends_split hs
  obtain ⟨r, h1, _, _, _, h5, _⟩ := hg p _ q rfl
  rw [reqs_append] at hx ha
  have hb : b < (reqs p).length := by rw [List.getElem?_eq_some_iff] at h1; exact h1.1
  obtain ⟨r', k1, k2⟩ := hx.less hb
  rw [h1] at k1
  cases k1
  obtain ⟨q', k3, k4⟩ := ha.less (by omega)
  exact (h5 a q' hab k3 (by rw [k4, k2])).more _

/-- What is on the way and what the station has got; `h` is the message it heard last. -/
structure Straight (x : Nat) (tr : List Item) (w : Way) (h : Option Nat) : Prop where
  frames : ∀ f ∈ w.down, 0 < sends tr f.1 ∧ ∃ r, (reqs tr)[f.1]? = some r ∧ r.addr.ssi = x ∧
    numberIn f.2 = some (parity ((reqs tr).take f.1) x, r.sdu)
  ord : w.down.Pairwise fun f g => f.1 ≤ g.1
  quiet : h = none → w.last = none ∧ w.got = []
  last : ∀ n, h = some n → 0 < sends tr n ∧ For (reqs tr) x n ∧ w.last = some (parity ((reqs tr).take n) x) ∧
    (∀ f ∈ w.down, n ≤ f.1) ∧ ∀ g ∈ w.got, g.1 ≤ n
  got : w.got.Pairwise fun f g => f.1 < g.1
  is : ∀ g ∈ w.got, ∃ r, (reqs tr)[g.1]? = some r ∧ r.addr.ssi = x ∧ g.2 = r.sdu

theorem numberIn_pdu {r : Req} {b : Bool} {pdu : List Bool}
    (h : ∃ hdr, pdu = hdr ++ r.sdu ∧ (hdr = [false, r.fcs, false, true, b] ∨ ∃ nr, hdr = [false, r.fcs, false, false, nr, b])) :
    numberIn pdu = some (b, r.sdu) := by
  obtain ⟨hdr, rfl, rfl | ⟨nr, rfl⟩⟩ := h <;> rfl

theorem sends_snoc (tr : List Item) (i : Item) (b : Nat) : sends tr b ≤ sends (tr ++ [i]) b := by
  rw [sends_append]; omega

theorem straight_item {x : Nat} {tr : List Item} {w : Way} {h : Option Nat} (i : Item) (hg : Good (tr ++ [i])) (hs : Straight x tr w h) :
    Straight x (tr ++ [i]) { w with down := w.down ++ i.frames x } h := by
  have hfr : ∀ f ∈ i.frames x, ∃ a ts, i = .out (.data f.1 a ts f.2) ∧ a.ssi = x := by
    intro f hf
    cases i with
    | ev e => cases hf
    | out o =>
      cases o with
      | data b a ts pdu =>
        simp only [Item.frames] at hf
        split at hf
        · rw [List.mem_singleton] at hf
          subst hf
          rename_i hx
          exact ⟨a, ts, rfl, hx⟩
        · cases hf
      | _ => cases hf
  have hfine : ∀ f ∈ i.frames x, 0 < sends (tr ++ [i]) f.1 ∧ (∃ r, (reqs (tr ++ [i]))[f.1]? = some r ∧ r.addr.ssi = x ∧
      numberIn f.2 = some (parity ((reqs (tr ++ [i])).take f.1) x, r.sdu)) ∧ ∀ b, 0 < sends tr b → For (reqs tr) x b → b ≤ f.1 := by
    intro f hf
    obtain ⟨a, ts, rfl, hx⟩ := hfr f hf
    obtain ⟨r, h1, h2, _, h4, h5, h6, _⟩ := hg tr _ [] rfl
    subst h2
    rw [hx] at h4
    have hr : reqs (tr ++ [.out (.data f.1 r.addr ts f.2)]) = reqs tr := by rw [reqs_append]; simp [reqs, Item.req]
    rw [hr]
    refine ⟨by rw [sends_append]; simp [sends, Item.isSend], ⟨r, h1, hx, numberIn_pdu h4⟩, fun b hb hfor => ?_⟩
    refine Classical.byContradiction fun hlt => ?_
    exact h6 (sent_done hg.prefix hb hfor ⟨r, h1, hx⟩ (by omega))
  have hold : ∀ b r, (reqs tr)[b]? = some r → (reqs (tr ++ [i]))[b]? = some r ∧ (reqs (tr ++ [i])).take b = (reqs tr).take b := by
    intro b r hr
    rw [reqs_append]
    exact getElem?_append_some hr _
  have hpos : ∀ b, 0 < sends tr b → 0 < sends (tr ++ [i]) b := fun b hb => Nat.lt_of_lt_of_le hb (sends_snoc tr i b)
  refine ⟨?_, ?_, hs.quiet, ?_, hs.got, ?_⟩
  · intro f hf
    simp only [List.mem_append] at hf
    rcases hf with hf | hf
    · obtain ⟨k1, r, k2, k3, k4⟩ := hs.frames f hf
      refine ⟨hpos _ k1, r, (hold _ _ k2).1, k3, ?_⟩
      rw [(hold _ _ k2).2]; exact k4
    · exact ⟨(hfine f hf).1, (hfine f hf).2.1⟩
  · rw [List.pairwise_append]
    refine ⟨hs.ord, ?_, fun f hf g hg' => ?_⟩
    · cases i with
      | ev e => exact List.Pairwise.nil
      | out o =>
        cases o with
        | data b a ts pdu =>
          simp only [Item.frames]
          split <;> simp
        | _ => exact List.Pairwise.nil
    · obtain ⟨k1, r, k2, k3, _⟩ := hs.frames f hf
      exact (hfine g hg').2.2 _ k1 ⟨r, k2, k3⟩
  · rintro n rfl
    obtain ⟨k1, k2, k3, k4, k5⟩ := hs.last n rfl
    obtain ⟨r, e1, e2⟩ := k2
    refine ⟨hpos _ k1, ⟨r, (hold _ _ e1).1, e2⟩, ?_, ?_, k5⟩
    · rw [(hold _ _ e1).2]; exact k3
    · intro f hf
      simp only [List.mem_append] at hf
      rcases hf with hf | hf
      · exact k4 f hf
      · exact (hfine f hf).2.2 _ k1 ⟨r, e1, e2⟩
  · intro g hg'
    obtain ⟨r, k1, k2, k3⟩ := hs.is g hg'
    exact ⟨r, (hold _ _ k1).1, k2, k3⟩

/-- The station is in step with the LLC: up to `c` everything for it is done with and has been received, and an acknowledgement on the way
with the number of the next message is one for the next message. -/
structure Sync (x : Nat) (tr : List Item) (w : Way) (h : Option Nat) (c : Nat) : Prop where
  le : c ≤ (reqs tr).length
  done : ∀ a, For (reqs tr) x a → (Reported tr a ↔ a < c)
  have_ : ∀ a, For (reqs tr) x a → a < c → a ∈ w.got.map Prod.fst
  heard : ∀ n, h = some n → n ∈ w.got.map Prod.fst
  acks : ∀ p ∈ w.up, ackIn p ≠ none
  up : ∀ u1 p u2, w.up = u1 ++ p :: u2 → ackIn p = some (parity ((reqs tr).take c) x) →
    (∃ n, h = some n ∧ c ≤ n) ∧ ∀ q ∈ u2, ackIn q = some (parity ((reqs tr).take c) x)
  now : ∀ t a ts p, tr = t ++ [.ev (.ind a ts p)] → a.ssi = x → ackIn p = some (parity ((reqs tr).take c) x) →
    (∃ n, h = some n ∧ c ≤ n) ∧ ∀ q ∈ w.up, ackIn q = some (parity ((reqs tr).take c) x)

/-- The message the station heard last has the number of the next message only if it is the next message. -/
theorem heard_bit {x : Nat} {tr : List Item} {w : Way} {n c : Nat} (hg : Good tr) (hs : Straight x tr w (some n)) (hy : Sync x tr w (some n) c) :
    (n < c → parity ((reqs tr).take n) x = !parity ((reqs tr).take c) x) ∧ (c ≤ n → parity ((reqs tr).take n) x = parity ((reqs tr).take c) x) := by
  obtain ⟨k1, k2, k3, k4, k5⟩ := hs.last n rfl
  refine ⟨fun hc => ?_, fun hc => ?_⟩
  · rw [parity_next hc k2, Bool.not_not]
    intro a h1 h2 ha
    obtain ⟨g, hg', e⟩ := List.mem_map.1 (hy.have_ a ha h2)
    have := k5 g hg'
    omega
  · refine parity_same hc fun a h1 h2 ha => ?_
    have := (hy.done a ha).1 (sent_done hg k1 k2 ha h2)
    omega

theorem reqs_ind (tr : List Item) (a : Addr) (ts : Nat) (p : List Bool) : reqs (tr ++ [.ev (.ind a ts p)]) = reqs tr := by
  rw [reqs_append]; simp [reqs, Item.req]

theorem reported_ind {tr : List Item} {e : Ev} {a : Nat} : Reported (tr ++ [.ev e]) a ↔ Reported tr a := by
  simp [Reported]

/-- No message for the station has been given up. -/
def Kept (x : Nat) (tr : List Item) : Prop := ∀ k, For (reqs tr) x k → .out (.lost k) ∉ tr

theorem Kept.prefix {x : Nat} {a b : List Item} (h : Kept x (a ++ b)) : Kept x a := by
  intro k hk hm
  rw [Kept, reqs_append] at h
  exact h k (hk.more _) (List.mem_append_left _ hm)

/-- An entry which is neither a request nor a report changes nothing. -/
theorem sync_other {x : Nat} {tr : List Item} {w w' : Way} {h : Option Nat} {c : Nat} {i : Item} (hy : Sync x tr w h c)
    (hi : ∀ a, For (reqs tr) x a → Reported (tr ++ [i]) a → Reported tr a)
    (hnew : ∀ a, For (reqs (tr ++ [i])) x a → (reqs tr).length ≤ a → ¬ Reported (tr ++ [i]) a)
    (ha : ¬ i.answers x) (hw : w'.up = w.up ∧ w'.got = w.got) : Sync x (tr ++ [i]) w' h c := by
  obtain ⟨e1, e2⟩ := hw
  have ht : (reqs (tr ++ [i])).take c = (reqs tr).take c := by rw [reqs_append, take_more _ hy.le]
  refine ⟨?_, fun a ha => ?_, fun a ha hac => ?_, by rw [e2]; exact hy.heard, by rw [e1]; exact hy.acks, by rw [e1, ht]; exact hy.up, ?_⟩
  · rw [reqs_append, List.length_append]; exact Nat.le_trans hy.le (Nat.le_add_right _ _)
  · by_cases hl : a < (reqs tr).length
    · have ha' : For (reqs tr) x a := by rw [reqs_append] at ha; exact ha.less hl
      rw [← hy.done a ha']
      exact ⟨hi a ha', fun hr => hr.more _⟩
    · refine ⟨fun hr => absurd hr (hnew a ha (by omega)), fun hac => ?_⟩
      have := hy.le
      omega
  · rw [e2]
    refine hy.have_ a ?_ hac
    rw [reqs_append] at ha
    exact ha.less (Nat.lt_of_lt_of_le hac hy.le)
  · intro t a ts p e hx hp
    have h2 := (List.append_inj' e rfl).2
    simp only [List.cons.injEq, and_true] at h2
    subst h2
    exact absurd ⟨hx, by rw [hp]; simp⟩ ha

/-- A report is about a request made before. -/
theorem report_before {tr : List Item} (hg : Good tr) {a : Nat} (h : Reported tr a) : a < (reqs tr).length := by
  have key : ∀ (p q : List Item) b, tr = p ++ q → 0 < sends p b → b < (reqs tr).length := by
    intro p q b e hb
    obtain ⟨p1, ad, ts, pdu, q1, rfl⟩ := sends_split hb
    subst e
    obtain ⟨r, h1, _⟩ := hg p1 (.data b ad ts pdu) (q1 ++ q) (by simp)
    have hb : b < (reqs p1).length := by rw [List.getElem?_eq_some_iff] at h1; exact h1.1
    simp only [reqs_append, List.length_append]
    omega
  rcases h with h | h
  · obtain ⟨p, q, rfl⟩ := List.append_of_mem h
    obtain ⟨_, _, _, _, _, r, _, h1, _⟩ := hg p _ q rfl
    have hb : a < (reqs p).length := by rw [List.getElem?_eq_some_iff] at h1; exact h1.1
    simp only [reqs_append, List.length_append]
    omega
  · obtain ⟨p, q, rfl⟩ := List.append_of_mem h
    obtain ⟨h1, _⟩ := hg p _ q rfl
    exact key p _ a rfl (by omega)

/-- After an entry which is not an acknowledgement of a message for the station. -/
theorem sync_item {x : Nat} {tr : List Item} {w w' : Way} {h : Option Nat} {c : Nat} {i : Item} (hg : Good (tr ++ [i])) (hk : Kept x (tr ++ [i]))
    (hi : ∀ a, For (reqs tr) x a → i ≠ .out (.acknowledged a)) (ha : ¬ i.answers x) (hy : Sync x tr w h c) (hw : w'.up = w.up ∧ w'.got = w.got) :
    Sync x (tr ++ [i]) w' h c := by
  have hr : ∀ a, Reported (tr ++ [i]) a → Reported tr a ∨ i = .out (.acknowledged a) ∨ i = .out (.lost a) := by
    rintro a (h | h)
    · rcases List.mem_append.1 h with h | h
      · exact .inl (.inl h)
      · exact .inr (.inl (List.mem_singleton.1 h).symm)
    · rcases List.mem_append.1 h with h | h
      · exact .inl (.inr h)
      · exact .inr (.inr (List.mem_singleton.1 h).symm)
  refine sync_other hy (fun a ha h => ?_) (fun a ha hl h => ?_) ha hw
  · rcases hr a h with h | h | h
    · exact h
    · exact absurd h (hi a ha)
    · exact absurd (by simp [h]) (hk a (by rw [reqs_append]; exact ha.more _))
  · have hl' := ha.lt
    rcases hr a h with h | h | h
    · have := report_before hg.prefix h
      omega
    · rw [h, reqs_append] at hl'
      simp only [reqs, Item.req, List.filterMap_cons, List.filterMap_nil, List.append_nil] at hl'
      have : (reqs tr).length = (tr.filterMap Item.req).length := rfl
      omega
    · rw [h, reqs_append] at hl'
      simp only [reqs, Item.req, List.filterMap_cons, List.filterMap_nil, List.append_nil] at hl'
      have : (reqs tr).length = (tr.filterMap Item.req).length := rfl
      omega

/-- The message which is acknowledged is the one the station heard last. -/
theorem sync_ack {x : Nat} {tr : List Item} {w : Way} {h : Option Nat} {c b : Nat} (hg : Good (tr ++ [.out (.acknowledged b)]))
    (hs : Straight x tr w h) (hy : Sync x tr w h c) (hb : For (reqs tr) x b) :
    b ∈ w.got.map Prod.fst ∧ Sync x (tr ++ [.out (.acknowledged b)]) w h (b + 1) := by
  obtain ⟨h1, p, a, ts, pdu, r, h2, h3, h4, h5, _, p1, p2, ⟨i, hi, e, _⟩, _⟩ := hg tr _ [] rfl
  have hg' := hg.prefix
  have hsend : 0 < sends tr b := by
    rw [h2, e, show p1 ++ i :: p2 = p1 ++ ([i] ++ p2) from rfl, sends_append, sends_append, sends_append]
    have : sends [i] b = 1 := by simp [sends, hi]
    omega
  obtain ⟨r', k1, k2⟩ := hb
  rw [h3] at k1
  cases k1
  rw [k2] at h4 h5
  have hb : For (reqs tr) x b := ⟨r, h3, k2⟩
  have hcb : c ≤ b := by
    refine Classical.byContradiction fun hlt => h1 ((hy.done b hb).2 (by omega))
  have hfree : ∀ a, c ≤ a → a < b → ¬ For (reqs tr) x a := by
    intro a h1 h2 ha
    have := (hy.done a ha).1 (sent_done hg' hsend hb ha h2)
    omega
  have hbit : parity ((reqs tr).take b) x = parity ((reqs tr).take c) x := parity_same hcb hfree
  rw [hbit] at h5
  obtain ⟨⟨n, rfl, hcn⟩, hup⟩ := hy.now p a ts pdu h2 h4 h5
  obtain ⟨q1, q2, q3, q4, q5⟩ := hs.last n rfl
  have hnb : n = b := by
    rcases Nat.lt_trichotomy n b with hlt | he | hgt
    · exact absurd q2 (hfree n hcn hlt)
    · exact he
    · exact absurd (sent_done hg' q1 q2 hb hgt) h1
  subst hnb
  have hgot := hy.heard n rfl
  have hr : reqs (tr ++ [.out (.acknowledged n)]) = reqs tr := by rw [reqs_append]; simp [reqs, Item.req]
  have hnext : parity ((reqs tr).take (n + 1)) x = !parity ((reqs tr).take c) x := by rw [parity_succ.1 hb, hbit]
  refine ⟨hgot, ?_, ?_, ?_, hy.heard, hy.acks, ?_, ?_⟩
  · rw [hr]; exact hb.lt
  · rw [hr]
    intro a ha
    constructor
    · rintro (h | h)
      · rcases List.mem_append.1 h with h | h
        · have := (hy.done a ha).1 (.inl h); omega
        · simp only [List.mem_singleton, Item.out.injEq, Emit.acknowledged.injEq] at h
          omega
      · rcases List.mem_append.1 h with h | h
        · have := (hy.done a ha).1 (.inr h); omega
        · simp at h
    · intro hlt
      by_cases e : a = n
      · subst e; exact .inl (by simp)
      · refine Reported.more ((hy.done a ha).2 ?_) _
        exact Classical.byContradiction fun hc => hfree a (by omega) (by omega) ha
  · rw [hr]
    intro a ha hlt
    by_cases e : a = n
    · subst e; exact hgot
    · refine hy.have_ a ha (Classical.byContradiction fun hc => hfree a (by omega) (by omega) ha)
  · rw [hr, hnext]
    intro u1 p' u2 e hp
    have := hup p' (by rw [e]; simp)
    rw [this] at hp
    simp at hp
  · intro t a' ts' p' e
    have := List.append_inj' e rfl
    simp at this

/-- The station receives the next frame. -/
theorem sync_hear {x : Nat} {tr : List Item} {b : Nat} {pdu : List Bool} {down : List (Nat × List Bool)} {up : List (List Bool)} {last : Option Bool}
    {got : List (Nat × List Bool)} {h : Option Nat} (hg : Good tr) (hs : Straight x tr ⟨(b, pdu) :: down, up, last, got⟩ h) :
    Straight x tr (Way.hear ⟨down, up, last, got⟩ b pdu) (some b) ∧
    (∀ c, Sync x tr ⟨(b, pdu) :: down, up, last, got⟩ h c → Sync x tr (Way.hear ⟨down, up, last, got⟩ b pdu) (some b) c) ∧
    ∀ g ∈ got, g ∈ (Way.hear ⟨down, up, last, got⟩ b pdu).got := by
  obtain ⟨hsend, r, hr, hx, hn⟩ := hs.frames (b, pdu) (.head _)
  have hfor : For (reqs tr) x b := ⟨r, hr, hx⟩
  have hord := List.pairwise_cons.1 hs.ord
  simp only at hn hr hsend
  simp only [Way.hear, hn]
  split
  · rename_i hdup
    -- a repetition
    cases h with
    | none => have := (hs.quiet rfl).1; simp only at this; rw [this] at hdup; cases hdup
    | some n =>
      obtain ⟨q1, q2, q3, q4, q5⟩ := hs.last n rfl
      have hnb : n ≤ b := q4 (b, pdu) (.head _)
      refine ⟨⟨fun f hf => hs.frames f (.tail _ hf), hord.2, (by simp), ?_, hs.got, hs.is⟩, fun c hy => ?_, fun g hg => hg⟩
      · rintro m hm
        cases hm
        exact ⟨hsend, hfor, hdup, fun f hf => hord.1 f hf, fun g hg => Nat.le_trans (q5 g hg) hnb⟩
      · have he : n = b := by
          refine Classical.byContradiction fun hne => ?_
          have hnc := (hy.done n q2).1 (sent_done hg hsend hfor q2 (by omega))
          have h1 := (heard_bit hg hs hy).1 hnc
          have hbc : c ≤ b := by
            refine Classical.byContradiction fun hlt => ?_
            obtain ⟨g, hg', e⟩ := List.mem_map.1 (hy.have_ b hfor (by omega))
            have := q5 g hg'
            omega
          have h2 : parity ((reqs tr).take b) x = parity ((reqs tr).take c) x := by
            refine parity_same hbc fun a k1 k2 ha => ?_
            have := (hy.done a ha).1 (sent_done hg hsend hfor ha k2)
            omega
          simp only at q3 hdup
          rw [q3] at hdup
          simp only [Option.some.injEq] at hdup
          rw [h1, h2] at hdup
          simp at hdup
        subst he
        exact ⟨hy.le, hy.done, hy.have_, hy.heard, hy.acks, hy.up, hy.now⟩
  · rename_i hnew
    have hlt : ∀ g ∈ got, g.1 < b := by
      intro g hg'
      cases h with
      | none => have := (hs.quiet rfl).2; simp only at this; rw [this] at hg'; cases hg'
      | some n =>
        obtain ⟨q1, q2, q3, q4, q5⟩ := hs.last n rfl
        have hnb : n ≤ b := q4 (b, pdu) (.head _)
        have hne : n ≠ b := by rintro rfl; exact hnew q3
        have := q5 g hg'
        omega
    have hge : ∀ n, h = some n → n ≤ b := fun n hn => (hs.last n hn).2.2.2.1 (b, pdu) (.head _)
    refine ⟨⟨fun f hf => hs.frames f (.tail _ hf), hord.2, (by simp), ?_, ?_, ?_⟩, fun c hy => ?_, fun g hg => List.mem_append_left _ hg⟩
    · rintro m hm
      cases hm
      refine ⟨hsend, hfor, rfl, fun f hf => hord.1 f hf, fun g hg => ?_⟩
      simp only [List.mem_append, List.mem_singleton] at hg
      rcases hg with hg | rfl
      · exact Nat.le_of_lt (hlt g hg)
      · exact Nat.le_refl _
    · rw [List.pairwise_append]
      refine ⟨hs.got, List.pairwise_singleton _ _, fun f hf g hg => ?_⟩
      rw [List.mem_singleton] at hg
      subst hg
      exact hlt f hf
    · intro g hg'
      simp only [List.mem_append, List.mem_singleton] at hg'
      rcases hg' with hg' | rfl
      · exact hs.is g hg'
      · exact ⟨r, hr, hx, rfl⟩
    · refine ⟨hy.le, hy.done, fun a ha hac => ?_, ?_, hy.acks, fun u1 p u2 e hp => ?_, fun t a ts p e k1 k2 => ?_⟩
      · simp only [List.map_append, List.mem_append]; exact .inl (hy.have_ a ha hac)
      · rintro m hm
        cases hm
        simp
      · obtain ⟨⟨n, h1, h2⟩, h3⟩ := hy.up u1 p u2 e hp
        exact ⟨⟨b, rfl, Nat.le_trans h2 (hge n h1)⟩, h3⟩
      · obtain ⟨⟨n, h1, h2⟩, h3⟩ := hy.now t a ts p e k1 k2
        exact ⟨⟨b, rfl, Nat.le_trans h2 (hge n h1)⟩, h3⟩

/-- The station acknowledges. -/
theorem sync_say {x : Nat} {tr : List Item} {w : Way} {h : Option Nat} {c : Nat} {nr : Bool} {p : List Bool} (hg : Good tr) (hs : Straight x tr w h)
    (hy : Sync x tr w h c) (hl : w.last = some nr) (hp : ackIn p = some nr) : Sync x tr { w with up := w.up ++ [p] } h c := by
  cases h with
  | none => rw [(hs.quiet rfl).1] at hl; cases hl
  | some n =>
    obtain ⟨q1, q2, q3, q4, q5⟩ := hs.last n rfl
    rw [hl] at q3
    simp only [Option.some.injEq] at q3
    have hbit := heard_bit hg hs hy
    have hge : c ≤ n → ackIn p = some (parity ((reqs tr).take c) x) := fun hc => by rw [hp, q3, hbit.2 hc]
    refine ⟨hy.le, hy.done, hy.have_, hy.heard, ?_, ?_, ?_⟩
    · intro q hq
      simp only [List.mem_append, List.mem_singleton] at hq
      rcases hq with hq | rfl
      · exact hy.acks q hq
      · rw [hp]; simp
    · intro u1 p' u2 e hp'
      rcases snoc_split e with ⟨rfl, e1, rfl⟩ | ⟨u, rfl, e1⟩
      · refine ⟨⟨n, rfl, ?_⟩, by simp⟩
        refine Classical.byContradiction fun hlt => ?_
        rw [hp, q3, hbit.1 (by omega)] at hp'
        simp at hp'
      · obtain ⟨⟨m, h1, h2⟩, h3⟩ := hy.up u1 p' u e1 hp'
        cases h1
        refine ⟨⟨n, rfl, h2⟩, fun q hq => ?_⟩
        simp only [List.mem_append, List.mem_singleton] at hq
        rcases hq with hq | rfl
        · exact h3 q hq
        · exact hge h2
    · intro t a ts p' e k1 k2
      obtain ⟨⟨m, h1, h2⟩, h3⟩ := hy.now t a ts p' e k1 k2
      cases h1
      refine ⟨⟨n, rfl, h2⟩, fun q hq => ?_⟩
      simp only [List.mem_append, List.mem_singleton] at hq
      rcases hq with hq | rfl
      · exact h3 q hq
      · exact hge h2

/-- The LLC gets an acknowledgement. -/
theorem sync_answer {x : Nat} {tr : List Item} {down : List (Nat × List Bool)} {p : List Bool} {up : List (List Bool)} {last : Option Bool}
    {got : List (Nat × List Bool)} {h : Option Nat} {c : Nat} (hy : Sync x tr ⟨down, p :: up, last, got⟩ h c) (a : Addr) (ts : Nat) :
    Sync x (tr ++ [.ev (.ind a ts p)]) ⟨down, up, last, got⟩ h c := by
  have hr := reqs_ind tr a ts p
  refine ⟨by rw [hr]; exact hy.le, ?_, by rw [hr]; exact hy.have_, hy.heard, fun q hq => hy.acks q (.tail _ hq), ?_, ?_⟩
  · rw [hr]
    intro b hb
    rw [reported_ind]
    exact hy.done b hb
  · rw [hr]
    intro u1 p' u2 e hp
    exact hy.up (p :: u1) p' u2 (by simp only at e; rw [e]; rfl) hp
  · rw [hr]
    intro t a' ts' p' e _ hp
    have := List.append_inj' e rfl
    simp only [List.cons.injEq, Item.ev.injEq, Ev.ind.injEq, and_true] at this
    obtain ⟨_, _, _, rfl⟩ := this
    exact hy.up [] p up rfl hp

/-- The invariant of the link. -/
theorem link_inv {x : Nat} {tr : List Item} {w : Way} (hl : Link x tr w) (hg : Good tr) :
    ∃ h, Straight x tr w h ∧ (Kept x tr → ∃ c, Sync x tr w h c) ∧
      ∀ b, For (reqs tr) x b → .out (.acknowledged b) ∈ tr → (∀ k, k < b → For (reqs tr) x k → .out (.lost k) ∉ tr) → b ∈ w.got.map Prod.fst := by
  induction hl with
  | start =>
    refine ⟨none, ⟨by simp, List.Pairwise.nil, fun _ => ⟨rfl, rfl⟩, by simp, List.Pairwise.nil, by simp⟩, fun _ => ⟨0, ?_⟩, by simp⟩
    refine ⟨Nat.le_refl _, ?_, ?_, by simp, by simp, by simp, by simp⟩
    · rintro a ⟨r, h, _⟩; simp [reqs] at h
    · rintro a ⟨r, h, _⟩; simp [reqs] at h
  | @item tr w hl i hi ih =>
    obtain ⟨h, hs, hy, ha⟩ := ih hg.prefix
    have hs' := straight_item i hg hs
    refine ⟨h, hs', fun hk => ?_, fun b hb hm hno => ?_⟩
    · obtain ⟨c, hy⟩ := hy hk.prefix
      by_cases hack : ∃ a, For (reqs tr) x a ∧ i = .out (.acknowledged a)
      · obtain ⟨a, hfa, rfl⟩ := hack
        have := (sync_ack hg hs hy hfa).2
        exact ⟨_, by simpa [Item.frames] using this⟩
      · exact ⟨c, sync_item hg hk (fun a ha e => hack ⟨a, ha, e⟩) hi hy ⟨rfl, rfl⟩⟩
    · have hbl : For (reqs tr) x b := by
        rw [reqs_append] at hb
        refine hb.less ?_
        rcases List.mem_append.1 hm with hm | hm
        · exact report_before hg.prefix (.inl hm)
        · rw [List.mem_singleton] at hm
          subst hm
          have := hb.lt
          rw [List.length_append, show reqs [Item.out (.acknowledged b)] = [] from rfl] at this
          exact this
      rcases List.mem_append.1 hm with hm | hm
      · refine ha b hbl hm fun k hk hf hm' => hno k hk ?_ (List.mem_append_left _ hm')
        rw [reqs_append]; exact hf.more _
      · rw [List.mem_singleton] at hm
        subst hm
        have hkept : Kept x tr := by
          intro k hk hm'
          by_cases hlt : k < b
          · refine hno k hlt ?_ (List.mem_append_left _ hm')
            rw [reqs_append]; exact hk.more _
          · have h1 : ¬ Reported tr b := (hg tr _ [] rfl).1
            by_cases e : k = b
            · subst e; exact h1 (.inr hm')
            · obtain ⟨p, q, e2⟩ := List.append_of_mem hm'
              have hs4 : sends p k = 4 := (hg.prefix p (.lost k) q e2).1
              have : 0 < sends tr k := by rw [e2, sends_append]; omega
              exact h1 (sent_done hg.prefix this hk hbl (by omega))
        obtain ⟨c, hy⟩ := hy hkept
        exact (sync_ack hg hs hy hbl).1
  | @answer tr down p up last got hl a ts hx ih =>
    obtain ⟨h, hs, hy, ha⟩ := ih hg.prefix
    have hr := reqs_ind tr a ts p
    have hsd : ∀ b, sends (tr ++ [.ev (.ind a ts p)]) b = sends tr b := by intro b; rw [sends_append]; simp [sends, Item.isSend]
    refine ⟨h, ⟨?_, hs.ord, hs.quiet, ?_, hs.got, by rw [hr]; exact hs.is⟩, fun hk => ?_, ?_⟩
    · rw [hr]; intro f hf; rw [hsd]; exact hs.frames f hf
    · rw [hr]; intro n hn; rw [hsd]; exact hs.last n hn
    · obtain ⟨c, hy⟩ := hy hk.prefix
      exact ⟨c, sync_answer hy a ts⟩
    · rw [hr]
      intro b hb hm hno
      refine ha b hb (by simpa using hm) fun k hk hf hm' => hno k hk hf (List.mem_append_left _ hm')
  | @say tr w hl nr p hlast hp ih =>
    obtain ⟨h, hs, hy, ha⟩ := ih hg
    refine ⟨h, ⟨hs.frames, hs.ord, hs.quiet, hs.last, hs.got, hs.is⟩, fun hk => ?_, ha⟩
    obtain ⟨c, hy⟩ := hy hk
    exact ⟨c, sync_say hg hs hy hlast hp⟩
  | @hear tr b pdu down up last got hl ih =>
    obtain ⟨h, hs, hy, ha⟩ := ih hg
    obtain ⟨k1, k2, k3⟩ := sync_hear hg hs
    refine ⟨some b, k1, fun hk => ?_, fun b' h1 h2 h3 => ?_⟩
    · obtain ⟨c, hy⟩ := hy hk
      exact ⟨c, k2 c hy⟩
    · obtain ⟨g, hg', e⟩ := List.mem_map.1 (ha b' h1 h2 h3)
      exact List.mem_map.2 ⟨g, k3 g hg', e⟩
  | @fade tr d1 f d2 up last got hl ih =>
    obtain ⟨h, hs, hy, ha⟩ := ih hg
    have hsub : ∀ g ∈ d1 ++ d2, g ∈ d1 ++ f :: d2 := by
      intro g hg; rcases List.mem_append.1 hg with h | h <;> simp [h]
    refine ⟨h, ⟨fun g hg => hs.frames g (hsub g hg), ?_, hs.quiet, ?_, hs.got, hs.is⟩, fun hk => ?_, ha⟩
    · exact hs.ord.sublist (List.Sublist.append_left (List.sublist_cons_self _ _) _)
    · intro n hn
      obtain ⟨q1, q2, q3, q4, q5⟩ := hs.last n hn
      exact ⟨q1, q2, q3, fun g hg => q4 g (hsub g hg), q5⟩
    · obtain ⟨c, hy⟩ := hy hk
      exact ⟨c, hy.le, hy.done, hy.have_, hy.heard, hy.acks, hy.up, hy.now⟩
  | @fadeUp tr down u1 p u2 last got hl ih =>
    obtain ⟨h, hs, hy, ha⟩ := ih hg
    have hsub : ∀ g ∈ u1 ++ u2, g ∈ u1 ++ p :: u2 := by
      intro g hg; rcases List.mem_append.1 hg with h | h <;> simp [h]
    refine ⟨h, ⟨hs.frames, hs.ord, hs.quiet, hs.last, hs.got, hs.is⟩, fun hk => ?_, ha⟩
    obtain ⟨c, hy⟩ := hy hk
    refine ⟨c, hy.le, hy.done, hy.have_, hy.heard, fun q hq => hy.acks q (hsub q hq), fun v1 q v2 e hq => ?_, fun t a ts q e k1 k2 => ?_⟩
    · rcases List.append_eq_append_iff.1 e with ⟨m, e1, e2⟩ | ⟨m, e1, e2⟩
      · -- the acknowledgement is behind the lost one
        subst e1
        obtain ⟨h1, h2⟩ := hy.up (u1 ++ p :: m) q v2 (by simp [e2]) hq
        exact ⟨h1, h2⟩
      · cases m with
        | nil =>
          simp only [List.nil_append] at e2
          subst e2
          simp only [List.append_nil] at e1
          subst e1
          exact hy.up (u1 ++ [p]) q v2 (by simp) hq
        | cons q' m =>
          simp only [List.cons_append, List.cons.injEq] at e2
          obtain ⟨rfl, rfl⟩ := e2
          subst e1
          obtain ⟨h1, h2⟩ := hy.up v1 q (m ++ p :: u2) (by simp) hq
          refine ⟨h1, fun g hg => h2 g ?_⟩
          rcases List.mem_append.1 hg with h | h <;> simp [h]
    · obtain ⟨h1, h2⟩ := hy.now t a ts q e k1 k2
      exact ⟨h1, fun g hg => h2 g (hsub g hg)⟩

/-! ## The theorems -/

/-- **C97, once and in order.** Whatever is lost on the air, repeated or given up: what a station has passed up are messages the LLC was asked
to send to it, unchanged, none twice, in the order in which they were asked for. -/
theorem c97_once {evs : List Ev} {s : Llc} {tr : List Item} {x : Nat} {w : Way} (h : Llc.init.run evs = .ok (s, tr)) (hl : Link x tr w) :
    (w.got.Pairwise fun f g => f.1 < g.1) ∧ ∀ g ∈ w.got, ∃ r, (reqs tr)[g.1]? = some r ∧ r.addr.ssi = x ∧ g.2 = r.sdu := by
  obtain ⟨_, hs, _⟩ := link_inv hl (rel_of_run h).inv.good
  exact ⟨hs.got, hs.is⟩

/-- **C97, an acknowledged message has arrived.** If the LLC reports a message for the station as acknowledged, and no message before it to the
same station was given up, then the station has passed it up. -/
theorem c97_acknowledged_partial {evs : List Ev} {s : Llc} {tr : List Item} {x : Nat} {w : Way} (h : Llc.init.run evs = .ok (s, tr)) (hl : Link x tr w)
    {b : Nat} (hb : For (reqs tr) x b) (ha : .out (.acknowledged b) ∈ tr) (hk : ∀ k, k < b → For (reqs tr) x k → .out (.lost k) ∉ tr) :
    b ∈ w.got.map Prod.fst := by
  obtain ⟨_, _, _, hs⟩ := link_inv hl (rel_of_run h).inv.good
  exact hs b hb ha hk

/-- **C97, no gaps.** As long as no message for the station was given up, the station has all messages before one it has passed up, and at
most one, the last, has not been reported as acknowledged. -/
theorem c97_no_gaps_partial {evs : List Ev} {s : Llc} {tr : List Item} {x : Nat} {w : Way} (h : Llc.init.run evs = .ok (s, tr)) (hl : Link x tr w)
    (hk : Kept x tr) :
    (∀ b ∈ w.got.map Prod.fst, ∀ a, a < b → For (reqs tr) x a → a ∈ w.got.map Prod.fst) ∧
    ∀ b ∈ w.got.map Prod.fst, .out (.acknowledged b) ∉ tr → ∀ a ∈ w.got.map Prod.fst, a ≤ b := by
  have hg := (rel_of_run h).inv.good
  obtain ⟨n?, hs, hy, _⟩ := link_inv hl hg
  obtain ⟨c, hy⟩ := hy hk
  have key : ∀ b ∈ w.got.map Prod.fst, For (reqs tr) x b ∧ ∀ a, a < b → For (reqs tr) x a → a < c := by
    intro b hb
    obtain ⟨g, hg', rfl⟩ := List.mem_map.1 hb
    obtain ⟨r, k1, k2, _⟩ := hs.is g hg'
    refine ⟨⟨r, k1, k2⟩, fun a hab ha => ?_⟩
    cases n? with
    | none => rw [(hs.quiet rfl).2] at hg'; cases hg'
    | some n =>
      obtain ⟨q1, q2, _, _, q5⟩ := hs.last n rfl
      have := q5 g hg'
      exact (hy.done a ha).1 (sent_done hg q1 q2 ha (by omega))
  refine ⟨fun b hb a hab ha => hy.have_ a ha ((key b hb).2 a hab ha), fun b hb hna a ha => ?_⟩
  refine Classical.byContradiction fun hlt => ?_
  have hfb := (key b hb).1
  rcases (hy.done b hfb).2 ((key a ha).2 b (by omega) hfb) with h | h
  · exact hna h
  · exact hk b hfb h

/-! ## Cases -/

theorem Link.items {x : Nat} {tr : List Item} {w : Way} (h : Link x tr w) (l : List Item) (hl : ∀ i ∈ l, ¬ i.answers x) :
    Link x (tr ++ l) { w with down := w.down ++ l.flatMap (Item.frames x) } := by
  induction l generalizing tr w with
  | nil => simpa using h
  | cons i l ih =>
    have := ih (h.item i (hl i (.head _))) fun j hj => hl j (.tail _ hj)
    simpa using this

/-- Entry of a trace as a decision. -/
def Item.answersB (x : Nat) : Item → Bool
  | .ev (.ind a _ pdu) => a.ssi == x && (ackIn pdu).isSome
  | _ => false

theorem not_answers {x : Nat} {l : List Item} (h : l.all (fun i => !i.answersB x) = true) : ∀ i ∈ l, ¬ i.answers x := by
  intro i hi ha
  have := List.all_eq_true.1 h i hi
  cases i with
  | out _ => exact ha
  | ev e =>
    cases e with
    | ind a ts pdu =>
      obtain ⟨h1, h2⟩ := ha
      simp only [Item.answersB, h1, beq_self_eq_true, Bool.true_and, Bool.not_eq_true', Option.isSome_eq_false_iff, Option.isNone_iff_eq_none] at this
      exact h2 this
    | _ => exact ha

def ackPdu (nr : Bool) : List Bool := [false, false, true, true, nr]

/-- Three messages; the second is never heard. -/
def threeEvs : List Ev :=
  let turn (k n : Nat) : List Ev := [.tickStart (fromInt (16 * n)), .tickEnd, .mac k false, .tickEnd]
  [.dataReq st1 1 false false true [true, false]] ++ turn 0 0 ++
    [.ind st1 1 (ackPdu false), .dataReq st1 1 false false true [true, true], .dataReq st1 1 false false true [false, true]] ++
    turn 1 1 ++ turn 1 2 ++ turn 1 3 ++ turn 1 4 ++ turn 2 5 ++ [.ind st1 1 (ackPdu false)]

/-- The trace of a history. -/
def traceOf (evs : List Ev) : List Item :=
  match Llc.init.run evs with
  | .ok (_, tr) => tr
  | .panic => []

theorem trace_run {evs : List Ev} (h : (match Llc.init.run evs with | .ok _ => true | .panic => false) = true) :
    ∃ s, Llc.init.run evs = .ok (s, traceOf evs) := by
  unfold traceOf
  cases e : Llc.init.run evs with
  | ok r => exact ⟨r.1, rfl⟩
  | panic => rw [e] at h; cases h

theorem three_run : ∃ s, Llc.init.run threeEvs = .ok (s, traceOf threeEvs) := trace_run (by decide +kernel)

/-- The trace in parts: up to the first acknowledgement, up to the second, and the rest. -/
theorem three_parts : traceOf threeEvs = (traceOf threeEvs).take 6 ++ [.ev (.ind st1 1 (ackPdu false))] ++ ((traceOf threeEvs).drop 7).take 29 ++
    [.ev (.ind st1 1 (ackPdu false))] ++ (traceOf threeEvs).drop 37 := by
  decide +kernel

theorem three_link : Link 1001 (traceOf threeEvs) ⟨[], [], some false, [(0, [true, false])]⟩ := by
  have p1 := Link.start.items (x := 1001) ((traceOf threeEvs).take 6) (not_answers (by decide +kernel))
  have f1 : ([] : List (Nat × List Bool)) ++ ((traceOf threeEvs).take 6).flatMap (Item.frames 1001) = [(0, [false, false, false, true, false, true, false])] := by
    decide +kernel
  rw [f1, List.nil_append] at p1
  have p2 : Link 1001 _ ⟨[], [], some false, [(0, [true, false])]⟩ := p1.hear
  have p3 : Link 1001 _ ⟨[], [ackPdu false], some false, [(0, [true, false])]⟩ := p2.say false (ackPdu false) rfl rfl
  have p4 := (p3.answer st1 1 rfl).items (((traceOf threeEvs).drop 7).take 29) (not_answers (by decide +kernel))
  have f2 : ([] : List (Nat × List Bool)) ++ (((traceOf threeEvs).drop 7).take 29).flatMap (Item.frames 1001) =
      List.replicate 4 (1, [false, false, false, true, true, true, true]) ++ [(2, [false, false, false, true, false, false, true])] := by
    decide +kernel
  rw [f2] at p4
  have p5 := (((p4.fade (d1 := [])).fade (d1 := [])).fade (d1 := [])).fade (d1 := [])
  have p6 : Link 1001 _ ⟨[], [], some false, [(0, [true, false])]⟩ := p5.hear
  have p7 : Link 1001 _ ⟨[], [ackPdu false], some false, [(0, [true, false])]⟩ := p6.say false (ackPdu false) rfl rfl
  have p8 := (p7.answer st1 1 rfl).items ((traceOf threeEvs).drop 37) (not_answers (by decide +kernel))
  have f3 : ([] : List (Nat × List Bool)) ++ ((traceOf threeEvs).drop 37).flatMap (Item.frames 1001) = [] := by decide +kernel
  rw [f3] at p8
  rw [three_parts]
  exact p8

/-- Finding: after a message which was given up, the next one has the number of the one before. A station which did not hear the message
given up takes the next one for a repetition: the LLC reports it as acknowledged, and the station has not passed it up. -/
theorem c97_after_giving_up : ∃ evs s tr w, Llc.init.run evs = .ok (s, tr) ∧ Link 1001 tr w ∧ .out (.acknowledged 2) ∈ tr ∧
    (reqs tr)[2]? = some ⟨st1, 1, false, [false, true]⟩ ∧ w.got = [(0, [true, false])] := by
  obtain ⟨s, h⟩ := three_run
  exact ⟨_, s, _, _, h, three_link, by decide +kernel, by decide +kernel, rfl⟩

/-- The theorems are not empty: the first message of this history was acknowledged and passed up. -/
example : 0 ∈ (Way.got ⟨[], [], some false, [(0, [true, false])]⟩).map Prod.fst := by
  obtain ⟨s, h⟩ := three_run
  exact c97_acknowledged_partial h three_link ⟨⟨st1, 1, false, [true, false]⟩, by decide +kernel, rfl⟩ (by decide +kernel) (by omega)

/-- Two messages; the first is heard at the second attempt, the second is heard and not acknowledged yet. -/
def twoEvs : List Ev :=
  let turn (k n : Nat) : List Ev := [.tickStart (fromInt (16 * n)), .tickEnd, .mac k false, .tickEnd]
  [.dataReq st1 1 false false true [true, false], .dataReq st1 1 false false true [true, true]] ++ turn 0 0 ++ turn 0 1 ++ [.ind st1 1 (ackPdu false)] ++ turn 1 2

theorem two_link : Link 1001 (traceOf twoEvs) ⟨[], [], some true, [(0, [true, false]), (1, [true, true])]⟩ := by
  have e : traceOf twoEvs = (traceOf twoEvs).take 12 ++ [.ev (.ind st1 1 (ackPdu false))] ++ (traceOf twoEvs).drop 13 := by decide +kernel
  have p1 := Link.start.items (x := 1001) ((traceOf twoEvs).take 12) (not_answers (by decide +kernel))
  have f1 : ([] : List (Nat × List Bool)) ++ ((traceOf twoEvs).take 12).flatMap (Item.frames 1001) =
      [] ++ (0, [false, false, false, true, false, true, false]) :: [(0, [false, false, false, true, false, true, false])] := by decide +kernel
  rw [f1, List.nil_append (as := (traceOf twoEvs).take 12)] at p1
  have p2 : Link 1001 _ ⟨[], [], some false, [(0, [true, false])]⟩ := p1.fade.hear
  have p3 : Link 1001 _ ⟨[], [ackPdu false], some false, [(0, [true, false])]⟩ := p2.say false (ackPdu false) rfl rfl
  have p4 := (p3.answer st1 1 rfl).items ((traceOf twoEvs).drop 13) (not_answers (by decide +kernel))
  have f2 : ([] : List (Nat × List Bool)) ++ ((traceOf twoEvs).drop 13).flatMap (Item.frames 1001) = [(1, [false, false, false, true, true, true, true])] := by
    decide +kernel
  rw [f2] at p4
  have p5 : Link 1001 _ ⟨[], [], some true, [(0, [true, false]), (1, [true, true])]⟩ := p4.hear
  rw [e]
  exact p5

example : ∃ s, Llc.init.run twoEvs = .ok (s, traceOf twoEvs) ∧ Kept 1001 (traceOf twoEvs) ∧ .out (.acknowledged 0) ∈ traceOf twoEvs := by
  obtain ⟨s, h⟩ := trace_run (evs := twoEvs) (by decide +kernel)
  refine ⟨s, h, fun k _ hk => ?_, by decide +kernel⟩
  have : (traceOf twoEvs).all (fun i => match i with | .out (.lost _) => false | _ => true) = true := by decide +kernel
  have := List.all_eq_true.1 this _ hk
  cases this

end Verif.Llc
