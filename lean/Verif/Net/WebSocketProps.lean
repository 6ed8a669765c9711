import Verif.Net.WebSocket
/-!
# C78: the connection to a server is kept while the server is alive and given up when it is not; messages arrive in order

The property: while a connection lasts, the messages the server sends are handed over once each and in order; pings are answered;
a server which has fallen silent is noticed at the first poll after the timeout, and a server which answers pings in time never
loses its connection.

All of it is proved for every history of events and times (`c78_in_order`, `c78_pongs`, `c78_dropped_iff`, `c78_kept_partial`);
the last one asks that the transport is polled often enough, with bounds. Without that it is false (`c78_stall`): the timeout is
looked at before the frames which wait are read, so that a caller which was busy for the time of the timeout loses the connection and
the messages waiting, although the server was alive all the time.
-/
namespace Verif.Net.Ws

/-! ## Specification -/

/-- Messages which arrived since the connection was made. -/
def cameStep (l : List (List Nat)) (x : Item) : List (List Nat) :=
  match x.ev with
  | .connect _ => []
  | .disconnect => []
  | .arrive (.binary p) => l ++ [p]
  | _ => l
def came (h : List Item) : List (List Nat) := h.foldl cameStep []

/-- Messages handed over since then. -/
def gotStep (l : List (List Nat)) (x : Item) : List (List Nat) :=
  match x.ev with
  | .connect _ => []
  | .disconnect => []
  | _ => l ++ x.acts.filterMap fun a => match a with | .message p => some p | _ => none
def got (h : List Item) : List (List Nat) := h.foldl gotStep []

/-- Pings of the server, and the pongs sent to it, since then. -/
def pingedStep (l : List (List Nat)) (x : Item) : List (List Nat) :=
  match x.ev with
  | .connect _ => []
  | .disconnect => []
  | .arrive (.ping p) => l ++ [p]
  | _ => l
def pinged (h : List Item) : List (List Nat) := h.foldl pingedStep []
def pongedStep (l : List (List Nat)) (x : Item) : List (List Nat) :=
  match x.ev with
  | .connect _ => []
  | .disconnect => []
  | _ => l ++ x.acts.filterMap fun a => match a with | .pong p => some p | _ => none
def ponged (h : List Item) : List (List Nat) := h.foldl pongedStep []

/-- Frames which show that the server is alive. -/
def Frame.alive : Frame → Bool
  | .binary _ | .ping _ | .pong _ => true
  | _ => false

/-- When the server was last heard: the last poll which found such a frame waiting, or the connection; and whether one has
arrived since. -/
def heardStep (s : Nat × Bool) (x : Item) : Nat × Bool :=
  match x.ev with
  | .connect _ => (x.at_, false)
  | .arrive f => (s.1, s.2 || f.alive)
  | .poll _ _ => if s.2 then (x.at_, false) else s
  | .disconnect => s
def heard (t0 : Nat) (h : List Item) : Nat × Bool := h.foldl heardStep (t0, false)

def Act.isPing : Act → Bool
  | .ping _ => true
  | _ => false

/-- When a ping was last sent, or the connection was made. -/
def pingStep (t : Nat) (x : Item) : Nat :=
  match x.ev with
  | .connect _ => x.at_
  | _ => if x.acts.any Act.isPing then x.at_ else t
def pingAt (t0 : Nat) (h : List Item) : Nat := h.foldl pingStep t0

/-- The pings sent on this connection. -/
def pingNos (l : List Nat) (x : Item) : List Nat :=
  match x.ev with
  | .connect _ => []
  | _ => l ++ x.acts.filterMap fun a => match a with | .ping i => some i | _ => none
def pingsOf (h : List Item) : List Nat := h.foldl pingNos []

/-- Frames which arrived since the last poll, or since the connection was made. -/
def unreadStep (l : List Frame) (x : Item) : List Frame :=
  match x.ev with
  | .arrive f => l ++ [f]
  | _ => []
def unread (h : List Item) : List Frame := h.foldl unreadStep []

/-- Nothing fails: connections are made, nothing is closed, pings and pongs can be sent. -/
def Item.fine (x : Item) : Bool :=
  match x.ev with
  | .connect works => works
  | .arrive f => f != .close && f != .error
  | .poll a b => a && b
  | .disconnect => false

/-- The last poll or connection. -/
def lookStep (t : Nat) (x : Item) : Nat :=
  match x.ev with
  | .connect _ | .poll _ _ => x.at_
  | _ => t
def look (t0 : Nat) (h : List Item) : Nat := h.foldl lookStep t0

/-- Every poll comes within `d` of the poll or connection before it. -/
def Prompt (d : Nat) : Nat → List Item → Prop
  | _, [] => True
  | t, x :: h => (∀ a b, x.ev = .poll a b → x.at_ ≤ t + d) ∧ Prompt d (lookStep t x) h

/-- No poll comes later than `limit` before the server has let something be heard (or a new connection is made). -/
def heardBy (limit : Nat) : List Item → Bool
  | [] => true
  | x :: h => match x.ev with
    | .connect _ => true
    | .arrive f => f.alive || heardBy limit h
    | .poll _ _ => decide (x.at_ ≤ limit) && heardBy limit h
    | .disconnect => heardBy limit h

/-- Something of the server arrives within `l` of every ping. -/
def Answered (l : Nat) : List Item → Prop
  | [] => True
  | x :: h => (x.acts.any Act.isPing = true → heardBy (x.at_ + l) h = true) ∧ Answered l h

/-! ## Reading -/

/-- Frames at which the connection is given up. -/
def Frame.breaks (pongOk : Bool) : Frame → Bool
  | .close | .error => true
  | .ping _ => !pongOk
  | _ => false

def Frame.message? : Frame → Option (List Nat)
  | .binary p => some p
  | _ => none
def Frame.ping? : Frame → Option (List Nat)
  | .ping p => some p
  | _ => none
def Act.message? : Act → Option (List Nat)
  | .message p => some p
  | _ => none
def Act.pong? : Act → Option (List Nat)
  | .pong p => some p
  | _ => none

theorem gotStep_eq (l : List (List Nat)) (x : Item) : gotStep l x =
    match x.ev with
    | .connect _ => []
    | .disconnect => []
    | _ => l ++ x.acts.filterMap Act.message? := by
  have : (fun a : Act => match a with | .message p => some p | _ => none) = Act.message? := by funext a; cases a <;> rfl
  unfold gotStep; rw [this]
theorem pongedStep_eq (l : List (List Nat)) (x : Item) : pongedStep l x =
    match x.ev with
    | .connect _ => []
    | .disconnect => []
    | _ => l ++ x.acts.filterMap Act.pong? := by
  have : (fun a : Act => match a with | .pong p => some p | _ => none) = Act.pong? := by funext a; cases a <;> rfl
  unfold pongedStep; rw [this]

structure ReadSpec (now : Nat) (ok : Bool) (w : Ws) (fs : List Frame) (r : Ws × List Act) : Prop where
  open_ : r.1.isOpen = (w.isOpen && !fs.any (Frame.breaks ok))
  queue : r.1.queue = []
  ping : r.1.lastPing = w.lastPing
  seq : r.1.seq = w.seq
  act : fs.any (Frame.breaks ok) = false → r.1.lastActivity = if fs.any Frame.alive then now else w.lastActivity
  msg : r.2.filterMap Act.message? = (fs.takeWhile fun f => !f.breaks ok).filterMap Frame.message?
  pong : r.2.filterMap Act.pong? = (fs.takeWhile fun f => !f.breaks ok).filterMap Frame.ping?
  noPing : ∀ i, Act.ping i ∉ r.2

theorem breaks_binary (ok : Bool) (p : List Nat) : (Frame.binary p).breaks ok = false := rfl
theorem breaks_ping (ok : Bool) (p : List Nat) : (Frame.ping p).breaks ok = !ok := rfl
theorem breaks_pong (ok : Bool) (p : List Nat) : (Frame.pong p).breaks ok = false := rfl
theorem breaks_close (ok : Bool) : Frame.close.breaks ok = true := rfl
theorem breaks_other (ok : Bool) : Frame.other.breaks ok = false := rfl
theorem breaks_error (ok : Bool) : Frame.error.breaks ok = true := rfl

theorem readAll_spec (now : Nat) (ok : Bool) (fs : List Frame) : ∀ w : Ws, ReadSpec now ok w fs (Ws.readAll now ok w fs) := by
  induction fs with
  | nil => intro w; constructor <;> simp [Ws.readAll]
  | cons f fs ih =>
    intro w
    cases f with
    | binary p =>
      obtain ⟨h1, h2, h3, h4, h5, h6, h7, h8⟩ := ih { w with lastActivity := now }
      constructor <;> simp_all [Ws.readAll, breaks_binary, Frame.alive, Frame.message?, Frame.ping?, Act.message?, Act.pong?, List.filterMap_cons]
    | ping p =>
      obtain ⟨h1, h2, h3, h4, h5, h6, h7, h8⟩ := ih { w with lastActivity := now }
      cases ok with
      | true => constructor <;> simp_all [Ws.readAll, breaks_ping, Frame.alive, Frame.message?, Frame.ping?, Act.message?, Act.pong?, List.filterMap_cons]
      | false => constructor <;> simp [Ws.readAll, breaks_ping]
    | pong p =>
      obtain ⟨h1, h2, h3, h4, h5, h6, h7, h8⟩ := ih { w with lastActivity := now }
      constructor <;> simp_all [Ws.readAll, breaks_pong, Frame.alive, Frame.message?, Frame.ping?, List.filterMap_cons]
    | close => constructor <;> simp [Ws.readAll, breaks_close]
    | other =>
      obtain ⟨h1, h2, h3, h4, h5, h6, h7, h8⟩ := ih w
      constructor <;> simp_all [Ws.readAll, breaks_other, Frame.alive, Frame.message?, Frame.ping?, List.filterMap_cons]
    | error => constructor <;> simp [Ws.readAll, breaks_error]

/-- What a poll of an open connection does. -/
structure PollSpec (c : Cfg) (now : Nat) (pingOk ok : Bool) (w : Ws) (r : Ws × List Act) : Prop where
  open_ : r.1.isOpen = false ↔ (c.interval ≤ now - w.lastPing ∧ pingOk = false) ∨ c.timeout ≤ now - w.lastActivity ∨
    ∃ f ∈ w.queue, f.breaks ok = true
  queue : r.1.queue = []
  ping : r.1.isOpen = true → r.1.lastPing = if c.interval ≤ now - w.lastPing then now else w.lastPing
  act : r.1.isOpen = true → r.1.lastActivity = if w.queue.any Frame.alive then now else w.lastActivity
  msg : ∃ fs, fs <+: w.queue ∧ r.2.filterMap Act.message? = fs.filterMap Frame.message? ∧
    r.2.filterMap Act.pong? = fs.filterMap Frame.ping? ∧ (r.1.isOpen = true → fs = w.queue)
  pinged : (∃ i, Act.ping i ∈ r.2) ↔ c.interval ≤ now - w.lastPing ∧ pingOk = true

theorem all_of_open {ok : Bool} {fs : List Frame} (h : fs.any (Frame.breaks ok) = false) : (fs.takeWhile fun f => !f.breaks ok) = fs := by
  induction fs with
  | nil => rfl
  | cons f fs ih =>
    simp only [List.any_cons, Bool.or_eq_false_iff] at h
    simp [h.1, ih h.2]

theorem poll_spec (c : Cfg) (now : Nat) (pingOk ok : Bool) (w : Ws) (hw : w.isOpen = true) :
    PollSpec c now pingOk ok w (w.poll c now pingOk ok) := by
  have hb : ((!w.queue.any (Frame.breaks ok)) = false) ↔ ∃ f ∈ w.queue, f.breaks ok = true := by
    rw [Bool.not_eq_false', List.any_eq_true]
  unfold Ws.poll
  rw [if_neg (by simp [hw])]
  by_cases hd : c.interval ≤ now - w.lastPing
  · rw [if_pos (by simp [Ws.pingDue, hd])]
    simp only
    cases pingOk with
    | false => exact ⟨by simp [hd], by simp, by simp, by simp, ⟨[], by simp⟩, by simp⟩
    | true =>
      simp only [if_true]
      by_cases ht : c.timeout ≤ now - w.lastActivity
      · rw [if_pos ht]
        exact ⟨by simp [ht], by simp, by simp, by simp, ⟨[], by simp [Act.message?, Act.pong?, List.filterMap_cons]⟩, by simp [hd]⟩
      · rw [if_neg ht]
        have hs := readAll_spec now ok w.queue { w with seq := (w.seq + 1) % 2 ^ 64, lastPing := now }
        generalize Ws.readAll now ok { w with seq := (w.seq + 1) % 2 ^ 64, lastPing := now } w.queue = r at hs ⊢
        obtain ⟨h1, h2, h3, h4, h5, h6, h7, h8⟩ := hs
        simp only [hw, Bool.true_and] at h1
        constructor
        · simp only [h1, hb, ht, hd, true_and, false_or, Bool.true_eq_false]
        · exact h2
        · intro _; simp only [h3, hd, if_true]
        · intro h
          have h := h1.symm.trans h
          exact h5 (by simpa using h)
        · refine ⟨_, List.takeWhile_prefix (fun f => !f.breaks ok), ?_, ?_, ?_⟩
          · simpa [Act.message?, List.filterMap_cons] using h6
          · simpa [Act.pong?, List.filterMap_cons] using h7
          · intro h
            have h := h1.symm.trans h
            exact all_of_open (by simpa using h)
        · exact ⟨fun _ => ⟨hd, rfl⟩, fun _ => ⟨_, List.mem_cons_self⟩⟩
  · rw [if_neg (by simp [Ws.pingDue, hd])]
    by_cases ht : c.timeout ≤ now - w.lastActivity
    · rw [if_pos ht]
      exact ⟨by simp [ht], by simp, by simp, by simp, ⟨[], by simp⟩, by simp [hd]⟩
    · rw [if_neg ht]
      have hs := readAll_spec now ok w.queue w
      generalize Ws.readAll now ok w w.queue = r at hs ⊢
      obtain ⟨h1, h2, h3, h4, h5, h6, h7, h8⟩ := hs
      simp only [hw, Bool.true_and] at h1
      constructor
      · simp only [h1, hb, ht, hd, false_and, false_or]
      · exact h2
      · intro _; simp only [h3, hd, if_false]
      · intro h
        have h := h1.symm.trans h
        exact h5 (by simpa using h)
      · refine ⟨_, List.takeWhile_prefix (fun f => !f.breaks ok), h6, h7, ?_⟩
        intro h
        have h := h1.symm.trans h
        exact all_of_open (by simpa using h)
      · exact ⟨fun ⟨i, h⟩ => absurd h (h8 i), fun h => absurd h.1 hd⟩

theorem poll_closed (c : Cfg) (now : Nat) (pingOk ok : Bool) (w : Ws) (hw : w.isOpen = false) : w.poll c now pingOk ok = (w, []) := by
  simp [Ws.poll, hw]

/-! ## Order -/

structure OrderInv (h : List Item) (w : Ws) : Prop where
  msgs : got h <+: came h
  pongs : ponged h <+: pinged h
  msgsOpen : w.isOpen = true → came h = got h ++ w.queue.filterMap Frame.message?
  pongsOpen : w.isOpen = true → pinged h = ponged h ++ w.queue.filterMap Frame.ping?

theorem foldl_snoc {α β : Type} (f : β → α → β) (b : β) (l : List α) (a : α) : (l ++ [a]).foldl f b = f (l.foldl f b) a := by
  simp

theorem got_snoc (h : List Item) (x : Item) : got (h ++ [x]) = gotStep (got h) x := foldl_snoc ..
theorem came_snoc (h : List Item) (x : Item) : came (h ++ [x]) = cameStep (came h) x := foldl_snoc ..
theorem pinged_snoc (h : List Item) (x : Item) : pinged (h ++ [x]) = pingedStep (pinged h) x := foldl_snoc ..
theorem ponged_snoc (h : List Item) (x : Item) : ponged (h ++ [x]) = pongedStep (ponged h) x := foldl_snoc ..
theorem heard_snoc (t0 : Nat) (h : List Item) (x : Item) : heard t0 (h ++ [x]) = heardStep (heard t0 h) x := foldl_snoc ..

theorem order_inv {c : Cfg} {t0 : Nat} {h : List Item} {w : Ws} (hr : Run c t0 h w) : OrderInv h w := by
  induction hr with
  | start => exact ⟨List.prefix_rfl, List.prefix_rfl, by simp [Ws.new], by simp [Ws.new]⟩
  | @step h w now e hr ht ih =>
    obtain ⟨i1, i2, i3, i4⟩ := ih
    cases e with
    | connect works =>
      refine ⟨?_, ?_, ?_, ?_⟩ <;>
        simp only [got_snoc, came_snoc, pinged_snoc, ponged_snoc, gotStep, cameStep, pingedStep, pongedStep] <;>
        cases works <;> simp [Ws.step, Ws.connect]
    | disconnect =>
      refine ⟨?_, ?_, ?_, ?_⟩ <;>
        simp only [got_snoc, came_snoc, pinged_snoc, ponged_snoc, gotStep, cameStep, pingedStep, pongedStep] <;>
        simp [Ws.step]
    | arrive f =>
      have hg : got (h ++ [⟨now, .arrive f, (w.step c now (.arrive f)).2⟩]) = got h := by
        rw [got_snoc, gotStep_eq]; simp [Ws.step]
      have hp : ponged (h ++ [⟨now, .arrive f, (w.step c now (.arrive f)).2⟩]) = ponged h := by
        rw [ponged_snoc, pongedStep_eq]; simp [Ws.step]
      have hc : came (h ++ [⟨now, .arrive f, (w.step c now (.arrive f)).2⟩]) = came h ++ f.message?.toList := by
        rw [came_snoc]; cases f <;> simp [cameStep, Frame.message?]
      have hq : pinged (h ++ [⟨now, .arrive f, (w.step c now (.arrive f)).2⟩]) = pinged h ++ f.ping?.toList := by
        rw [pinged_snoc]; cases f <;> simp [pingedStep, Frame.ping?]
      refine ⟨?_, ?_, ?_, ?_⟩
      · rw [hg, hc]; exact i1.trans (List.prefix_append ..)
      · rw [hp, hq]; exact i2.trans (List.prefix_append ..)
      · intro ho
        have hw : w.isOpen = true := by
          simp only [Ws.step] at ho
          split at ho <;> assumption
        rw [hg, hc, i3 hw]
        simp only [Ws.step, hw, if_true, List.filterMap_append, List.append_assoc]
        cases f <;> rfl
      · intro ho
        have hw : w.isOpen = true := by
          simp only [Ws.step] at ho
          split at ho <;> assumption
        rw [hp, hq, i4 hw]
        simp only [Ws.step, hw, if_true, List.filterMap_append, List.append_assoc]
        cases f <;> rfl
    | poll a b =>
      simp only [Ws.step]
      have hc : came (h ++ [⟨now, .poll a b, (w.poll c now a b).2⟩]) = came h := by rw [came_snoc]; rfl
      have hq : pinged (h ++ [⟨now, .poll a b, (w.poll c now a b).2⟩]) = pinged h := by rw [pinged_snoc]; rfl
      have hg : got (h ++ [⟨now, .poll a b, (w.poll c now a b).2⟩]) = got h ++ (w.poll c now a b).2.filterMap Act.message? := by
        rw [got_snoc, gotStep_eq]
      have hp : ponged (h ++ [⟨now, .poll a b, (w.poll c now a b).2⟩]) = ponged h ++ (w.poll c now a b).2.filterMap Act.pong? := by
        rw [ponged_snoc, pongedStep_eq]
      by_cases hw : w.isOpen = true
      · obtain ⟨_, hqu, _, _, ⟨fs, f1, f2, f3, f4⟩, _⟩ := poll_spec c now a b w hw
        refine ⟨?_, ?_, ?_, ?_⟩
        · rw [hg, hc, f2, i3 hw]
          exact List.prefix_append_right_inj .. |>.2 (f1.filterMap _)
        · rw [hp, hq, f3, i4 hw]
          exact List.prefix_append_right_inj .. |>.2 (f1.filterMap _)
        · intro ho; rw [hg, hc, f2, i3 hw, f4 ho, hqu]; simp
        · intro ho; rw [hp, hq, f3, i4 hw, f4 ho, hqu]; simp
      · have hw : w.isOpen = false := by simpa using hw
        rw [poll_closed c now a b w hw] at hc hq hg hp ⊢
        simp only [List.filterMap_nil, List.append_nil] at hg hp
        refine ⟨?_, ?_, ?_, ?_⟩
        · rw [hg, hc]; exact i1
        · rw [hp, hq]; exact i2
        · intro ho; rw [hg, hc]; exact i3 ho
        · intro ho; rw [hp, hq]; exact i4 ho

/-- **C78, messages.** What is handed over is always an initial part of what arrived since the connection was made, and all of it
after a poll which leaves the connection open. -/
theorem c78_in_order {c : Cfg} {t0 : Nat} {h : List Item} {w : Ws} (hr : Run c t0 h w) :
    got h <+: came h ∧
    (∀ now a b, lastTime t0 h ≤ now → (w.poll c now a b).1.isOpen = true →
      got (h ++ [⟨now, .poll a b, (w.poll c now a b).2⟩]) = came h) := by
  refine ⟨(order_inv hr).msgs, ?_⟩
  intro now a b ht ho
  have hi := order_inv (Run.step (e := .poll a b) hr ht)
  have h2 := hi.msgsOpen ho
  have hw : w.isOpen = true := by
    by_cases hw : w.isOpen = true
    · exact hw
    · rw [poll_closed c now a b w (by simpa using hw)] at ho; exact ho
  simp only [Ws.step, (poll_spec c now a b w hw).queue, List.filterMap_nil, List.append_nil] at h2
  rw [← h2, came_snoc]; rfl

/-- **C78, pongs.** The same for the pings of the server and the pongs which answer them. -/
theorem c78_pongs {c : Cfg} {t0 : Nat} {h : List Item} {w : Ws} (hr : Run c t0 h w) :
    ponged h <+: pinged h ∧
    (∀ now a b, lastTime t0 h ≤ now → (w.poll c now a b).1.isOpen = true →
      ponged (h ++ [⟨now, .poll a b, (w.poll c now a b).2⟩]) = pinged h) := by
  refine ⟨(order_inv hr).pongs, ?_⟩
  intro now a b ht ho
  have hi := order_inv (Run.step (e := .poll a b) hr ht)
  have h2 := hi.pongsOpen ho
  have hw : w.isOpen = true := by
    by_cases hw : w.isOpen = true
    · exact hw
    · rw [poll_closed c now a b w (by simpa using hw)] at ho; exact ho
  simp only [Ws.step, (poll_spec c now a b w hw).queue, List.filterMap_nil, List.append_nil] at h2
  rw [← h2, pinged_snoc]; rfl

/-! ## When the connection is given up -/

structure HeardInv (t0 : Nat) (h : List Item) (w : Ws) : Prop where
  time : w.isOpen = true → w.lastActivity = (heard t0 h).1
  waits : w.isOpen = true → (heard t0 h).2 = w.queue.any Frame.alive

theorem heard_inv {c : Cfg} {t0 : Nat} {h : List Item} {w : Ws} (hr : Run c t0 h w) : HeardInv t0 h w := by
  induction hr with
  | start => exact ⟨by simp [Ws.new], by simp [Ws.new]⟩
  | @step h w now e hr ht ih =>
    obtain ⟨i1, i2⟩ := ih
    cases e with
    | connect works => constructor <;> rw [heard_snoc] <;> cases works <;> simp [Ws.step, Ws.connect, heardStep]
    | disconnect => constructor <;> simp [Ws.step]
    | arrive f =>
      constructor <;> rw [heard_snoc] <;> intro ho <;> (
        have hw : w.isOpen = true := by
          simp only [Ws.step] at ho
          split at ho <;> assumption
        simp [Ws.step, hw, heardStep, i1 hw, i2 hw])
    | poll a b =>
      have key : ((w.step c now (.poll a b)).1.isOpen = true) → w.isOpen = true := by
        intro ho
        by_cases hw : w.isOpen = true
        · exact hw
        · simp only [Ws.step] at ho; rw [poll_closed c now a b w (by simpa using hw)] at ho; exact ho
      constructor <;> rw [heard_snoc] <;> intro ho <;> have hw := key ho <;>
        have hp := poll_spec c now a b w hw
      · simp only [Ws.step, heardStep] at ho ⊢
        rw [hp.act ho, i2 hw]
        split <;> simp [i1 hw]
      · simp only [Ws.step, heardStep] at ho ⊢
        rw [hp.queue, i2 hw]
        split
        · rfl
        · rename_i hn; rw [i2 hw]; simpa using hn

theorem ping_inv {c : Cfg} {t0 : Nat} {h : List Item} {w : Ws} (hr : Run c t0 h w) : w.isOpen = true → w.lastPing = pingAt t0 h := by
  induction hr with
  | start => simp [Ws.new]
  | @step h w now e hr ht ih =>
    have hs : ∀ x, pingAt t0 (h ++ [x]) = pingStep (pingAt t0 h) x := fun x => foldl_snoc ..
    rw [hs]
    cases e with
    | connect works => cases works <;> simp [Ws.step, Ws.connect, pingStep]
    | disconnect => simp [Ws.step]
    | arrive f =>
      intro ho
      have hw : w.isOpen = true := by
        simp only [Ws.step] at ho
        split at ho <;> assumption
      simp [Ws.step, hw, pingStep, ih hw]
    | poll a b =>
      intro ho
      simp only [Ws.step] at ho ⊢
      have hw : w.isOpen = true := by
        by_cases hw : w.isOpen = true
        · exact hw
        · rw [poll_closed c now a b w (by simpa using hw)] at ho; exact ho
      have hp := poll_spec c now a b w hw
      rw [hp.ping ho]
      simp only [pingStep]
      have hany : ((w.poll c now a b).2.any Act.isPing = true) ↔ ∃ i, Act.ping i ∈ (w.poll c now a b).2 := by
        rw [List.any_eq_true]
        constructor
        · rintro ⟨x, hx, h⟩
          cases x <;> simp_all [Act.isPing]
          exact ⟨_, hx⟩
        · rintro ⟨i, hi⟩; exact ⟨_, hi, rfl⟩
      rw [hp.pinged] at hany
      by_cases hd : c.interval ≤ now - w.lastPing
      · have : a = true := by
          cases a with
          | true => rfl
          | false => rw [hp.open_.2 (.inl ⟨hd, rfl⟩)] at ho; cases ho
        rw [if_pos hd, if_pos (hany.2 ⟨hd, this⟩)]
      · rw [if_neg hd, if_neg (fun h => hd (hany.1 h).1), ih hw]

theorem unread_inv {c : Cfg} {t0 : Nat} {h : List Item} {w : Ws} (hr : Run c t0 h w) : w.isOpen = true → w.queue = unread h := by
  induction hr with
  | start => simp [Ws.new]
  | @step h w now e hr ht ih =>
    have hs : ∀ x, unread (h ++ [x]) = unreadStep (unread h) x := fun x => foldl_snoc ..
    rw [hs]
    cases e with
    | connect works => cases works <;> simp [Ws.step, Ws.connect, unreadStep]
    | disconnect => simp [Ws.step]
    | arrive f =>
      intro ho
      have hw : w.isOpen = true := by
        simp only [Ws.step] at ho
        split at ho <;> assumption
      simp [Ws.step, hw, unreadStep, ih hw]
    | poll a b =>
      intro ho
      simp only [Ws.step] at ho ⊢
      have hw : w.isOpen = true := by
        by_cases hw : w.isOpen = true
        · exact hw
        · rw [poll_closed c now a b w (by simpa using hw)] at ho; exact ho
      exact (poll_spec c now a b w hw).queue

theorem readAll_seq (now : Nat) (ok : Bool) (fs : List Frame) : ∀ w : Ws, (Ws.readAll now ok w fs).1.seq = w.seq ∧
    (Ws.readAll now ok w fs).2.filterMap (fun a => match a with | .ping i => some i | _ => none) = [] := by
  induction fs with
  | nil => intro w; simp [Ws.readAll]
  | cons f fs ih =>
    intro w
    cases f <;> simp only [Ws.readAll]
    case binary p => simpa using ih { w with lastActivity := now }
    case ping p =>
      split
      · simpa using ih { w with lastActivity := now }
      · simp
    case pong p => simpa using ih { w with lastActivity := now }
    case close => simp
    case other => exact ih w
    case error => simp

/-- **C78, numbers of pings.** The pings on a connection are numbered from one on (until the number overflows), one after the other. -/
theorem c78_ping_numbers {c : Cfg} {t0 : Nat} {h : List Item} {w : Ws} (hr : Run c t0 h w) (hw : w.isOpen = true) :
    pingsOf h = (List.range (pingsOf h).length).map (fun i => (i + 1) % 2 ^ 64) ∧ w.seq = (pingsOf h).length % 2 ^ 64 := by
  have hs : ∀ (h : List Item) x, pingsOf (h ++ [x]) = pingNos (pingsOf h) x := fun h x => foldl_snoc ..
  induction hr with
  | start => simp [Ws.new] at hw
  | @step h w now e hr ht ih =>
    rw [hs]
    cases e with
    | connect works => cases works <;> simp_all [Ws.step, Ws.connect, pingNos]
    | disconnect => simp [Ws.step] at hw
    | arrive f =>
      have ho : w.isOpen = true := by
        simp only [Ws.step] at hw
        split at hw <;> assumption
      simpa [Ws.step, ho, pingNos] using ih ho
    | poll a b =>
      simp only [Ws.step] at hw ⊢
      have ho : w.isOpen = true := by
        by_cases hw' : w.isOpen = true
        · exact hw'
        · rw [poll_closed c now a b w (by simpa using hw')] at hw; exact hw
      obtain ⟨i1, i2⟩ := ih ho
      simp only [pingNos]
      unfold Ws.poll at hw ⊢
      rw [if_neg (by simp [ho])] at hw ⊢
      split at hw
      · rename_i hd
        rw [if_pos hd]
        cases a with
        | false => simp at hw
        | true =>
          simp only [if_true] at hw ⊢
          split at hw
          · simp at hw
          · rename_i hto
            rw [if_neg hto]
            obtain ⟨r1, r2⟩ := readAll_seq now b w.queue { w with lastPing := now, seq := (w.seq + 1) % 2 ^ 64 }
            simp only [List.filterMap_cons, r1, r2, List.length_append, List.length_cons, List.length_nil, Nat.zero_add]
            have e : (w.seq + 1) % 2 ^ 64 = ((pingsOf h).length + 1) % 2 ^ 64 := by rw [i2]; omega
            refine ⟨?_, e⟩
            rw [List.range_succ, List.map_append, ← i1, e]
            rfl
      · rename_i hd
        rw [if_neg hd]
        split at hw
        · simp at hw
        · rename_i hto
          rw [if_neg hto]
          obtain ⟨r1, r2⟩ := readAll_seq now b w.queue w
          rw [r1, r2, List.append_nil]
          exact ⟨i1, i2⟩

/-- **C78, pings.** A poll of an open connection sends a ping exactly if the last one, or the connection, is at least the interval
ago. -/
theorem c78_pings {c : Cfg} {t0 : Nat} {h : List Item} {w : Ws} (hr : Run c t0 h w) (hw : w.isOpen = true) (now : Nat) (a b : Bool) :
    (∃ i, Act.ping i ∈ (w.poll c now a b).2) ↔ c.interval ≤ now - pingAt t0 h ∧ a = true := by
  rw [← ping_inv hr hw]; exact (poll_spec c now a b w hw).pinged

/-- **C78, giving up.** A poll of an open connection gives it up exactly if the ping due cannot be sent, or the server was not heard
for the time of the timeout, or the connection has been closed or has failed, or a pong cannot be sent. -/
theorem c78_dropped_iff {c : Cfg} {t0 : Nat} {h : List Item} {w : Ws} (hr : Run c t0 h w) (hw : w.isOpen = true) (now : Nat)
    (a b : Bool) :
    (w.poll c now a b).1.isOpen = false ↔
      (c.interval ≤ now - pingAt t0 h ∧ a = false) ∨ c.timeout ≤ now - (heard t0 h).1 ∨
      ∃ f ∈ unread h, f = .close ∨ f = .error ∨ ((∃ p, f = .ping p) ∧ b = false) := by
  rw [← ping_inv hr hw, ← (heard_inv hr).time hw, ← unread_inv hr hw, (poll_spec c now a b w hw).open_]
  refine or_congr Iff.rfl (or_congr Iff.rfl ?_)
  refine exists_congr fun f => and_congr Iff.rfl ?_
  cases f <;> cases b <;> simp [Frame.breaks]

/-! ## Keeping it -/

theorem prompt_snoc {d t : Nat} {h : List Item} {x : Item} (hp : Prompt d t (h ++ [x])) :
    Prompt d t h ∧ ∀ a b, x.ev = .poll a b → x.at_ ≤ look t h + d := by
  induction h generalizing t with
  | nil => exact ⟨trivial, hp.1⟩
  | cons y h ih =>
    obtain ⟨h1, h2⟩ := hp
    exact ⟨⟨h1, (ih h2).1⟩, (ih h2).2⟩

theorem heardBy_init {l : Nat} {h : List Item} {x : Item} (hb : heardBy l (h ++ [x]) = true) : heardBy l h = true := by
  induction h with
  | nil => rfl
  | cons y h ih =>
    simp only [List.cons_append, heardBy] at hb ⊢
    split <;> simp_all
    rcases hb with hb | hb
    · exact .inl hb
    · exact .inr (ih hb)

theorem answered_init {l : Nat} {h : List Item} {x : Item} (ha : Answered l (h ++ [x])) : Answered l h := by
  induction h with
  | nil => trivial
  | cons y h ih => exact ⟨fun hy => heardBy_init (ha.1 hy), ih ha.2⟩

theorem answered_split {l : Nat} {h1 h2 : List Item} {x : Item} (ha : Answered l (h1 ++ x :: h2)) (hx : x.acts.any Act.isPing = true) :
    heardBy (x.at_ + l) h2 = true := by
  induction h1 with
  | nil => exact ha.1 hx
  | cons y h1 ih => exact ih ha.2

/-- Nothing of the server, and no connection. -/
def Item.quiet (x : Item) : Bool :=
  match x.ev with
  | .connect _ => false
  | .arrive f => !f.alive
  | _ => true

theorem heardBy_quiet {l : Nat} {h : List Item} {x : Item} (hq : ∀ y ∈ h, y.quiet = true) {a b : Bool} (hx : x.ev = .poll a b)
    (hb : heardBy l (h ++ [x]) = true) : x.at_ ≤ l := by
  induction h with
  | nil => simp [heardBy, hx] at hb; exact hb
  | cons y h ih =>
    have hy := hq y List.mem_cons_self
    apply ih (fun z hz => hq z (List.mem_cons_of_mem _ hz))
    simp only [List.cons_append, heardBy] at hb
    simp only [Item.quiet] at hy
    split at hb <;> simp_all

theorem look_snoc (t0 : Nat) (h : List Item) (x : Item) : look t0 (h ++ [x]) = lookStep (look t0 h) x := foldl_snoc ..

theorem lastTime_snoc (t0 : Nat) (h : List Item) (x : Item) : lastTime t0 (h ++ [x]) = x.at_ := by simp [lastTime]

theorem unread_mem {h : List Item} {f : Frame} (hm : f ∈ unread h) : ∃ x ∈ h, x.ev = .arrive f := by
  have key : ∀ (h : List Item) (q : List Frame), f ∈ h.foldl unreadStep q → f ∈ q ∨ ∃ x ∈ h, x.ev = .arrive f := by
    intro h
    induction h with
    | nil => intro q hq; exact .inl hq
    | cons y h ih =>
      intro q hq
      rcases ih _ hq with hq | ⟨x, hx, he⟩
      · simp only [unreadStep] at hq
        split at hq
        · rename_i g hg
          rcases List.mem_append.1 hq with hq | hq
          · exact .inl hq
          · simp only [List.mem_singleton] at hq; subst hq
            exact .inr ⟨y, by simp, hg⟩
        · cases hq
      · exact .inr ⟨x, by simp [hx], he⟩
  rcases key h [] hm with h | h
  · cases h
  · exact h

structure KeptInv (c : Cfg) (l d t0 : Nat) (h : List Item) (w : Ws) : Prop where
  open_ : w.isOpen = true
  time : look t0 h ≤ lastTime t0 h
  ping : w.lastPing ≤ look t0 h
  act : w.lastActivity ≤ look t0 h
  due : look t0 h < w.lastPing + c.interval
  cases_ : w.lastPing ≤ w.lastActivity ∨
    (w.lastActivity < w.lastPing ∧ w.lastPing < w.lastActivity + c.interval + d ∧ look t0 h ≤ w.lastPing + l ∧
      (w.queue.any Frame.alive = true ∨
        ∃ h1 x h2, h = h1 ++ x :: h2 ∧ x.acts.any Act.isPing = true ∧ x.at_ = w.lastPing ∧ ∀ y ∈ h2, y.quiet = true))

theorem kept_inv {c : Cfg} {l d t0 : Nat} (h1 : l + d < c.interval) (h2 : c.interval + l + 2 * d ≤ c.timeout) {h : List Item} {w : Ws}
    (hr : Run c t0 h w) (hf : ∀ x ∈ h, x.fine = true) (hp : Prompt d t0 h) (ha : Answered l h) :
    (w.isOpen = false ∧ w.queue = [] ∧ ∀ x ∈ h, ∀ b, x.ev ≠ .connect b) ∨ KeptInv c l d t0 h w := by
  induction hr with
  | start => exact .inl ⟨rfl, rfl, by simp⟩
  | @step h w now e hr ht ih =>
    have ih := ih (fun x hx => hf x (by simp [hx])) (prompt_snoc hp).1 (answered_init ha)
    have hfe := hf ⟨now, e, (w.step c now e).2⟩ (by simp)
    cases e with
    | disconnect => simp [Item.fine] at hfe
    | connect works =>
      have : works = true := by simpa [Item.fine] using hfe
      subst this
      right
      constructor
      · rfl
      · rw [look_snoc, lastTime_snoc]; exact Nat.le_refl _
      · rw [look_snoc]; exact Nat.le_refl _
      · rw [look_snoc]; exact Nat.le_refl _
      · rw [look_snoc]; simp only [Ws.step, Ws.connect, if_true, lookStep]; omega
      · left; exact Nat.le_refl _
    | arrive f =>
      rcases ih with ⟨i1, i2, i3⟩ | ih
      · left
        simp only [Ws.step]
        rw [if_neg (by simp [i1])]
        refine ⟨i1, i2, ?_⟩
        intro x hx b
        rcases List.mem_append.1 hx with hx | hx
        · exact i3 x hx b
        · simp only [List.mem_singleton] at hx; subst hx; simp
      · right
        obtain ⟨i1, i2, i6, i3, i4, i5⟩ := ih
        simp only [Ws.step]
        rw [if_pos i1]
        constructor
        · exact i1
        · rw [look_snoc, lastTime_snoc]; exact Nat.le_trans i2 ht
        · rw [look_snoc]; exact i6
        · rw [look_snoc]; exact i3
        · rw [look_snoc]; exact i4
        · rw [look_snoc]
          rcases i5 with i5 | ⟨j1, j2, j3, j4⟩
          · exact .inl i5
          · refine .inr ⟨j1, j2, j3, ?_⟩
            by_cases hfa : f.alive = true
            · left; simp [hfa]
            · rcases j4 with j4 | ⟨g1, x, g2, k1, k2, k3, k4⟩
              · left; simp [j4]
              · right
                refine ⟨g1, x, g2 ++ [⟨now, .arrive f, []⟩], by simp [k1], k2, k3, ?_⟩
                intro y hy
                rcases List.mem_append.1 hy with hy | hy
                · exact k4 y hy
                · simp only [List.mem_singleton] at hy; subst hy; simpa [Item.quiet] using hfa
    | poll a b =>
      have hab : a = true ∧ b = true := by simpa [Item.fine] using hfe
      obtain ⟨rfl, rfl⟩ := hab
      rcases ih with ⟨i1, i2, i3⟩ | ih
      · left
        simp only [Ws.step]
        rw [poll_closed c now _ _ w i1]
        refine ⟨i1, i2, ?_⟩
        intro x hx b
        rcases List.mem_append.1 hx with hx | hx
        · exact i3 x hx b
        · simp only [List.mem_singleton] at hx; subst hx; simp
      · right
        obtain ⟨i1, i2, i6, i3, i4, i5⟩ := ih
        have hpo := (prompt_snoc hp).2 true true rfl
        simp only at hpo
        have hs := poll_spec c now true true w i1
        have hnb : ¬ ∃ f ∈ w.queue, f.breaks true = true := by
          rintro ⟨f, hm, hfb⟩
          rw [unread_inv hr i1] at hm
          obtain ⟨x, hx, hxe⟩ := unread_mem hm
          have := hf x (by simp [hx])
          cases f <;> simp_all [Item.fine, Frame.breaks]
        have hnow : look t0 h ≤ now := Nat.le_trans i2 ht
        have hnt : ¬ c.timeout ≤ now - w.lastActivity := by
          rcases i5 with i5 | ⟨j1, j2, j3, j4⟩ <;> omega
        have ho : (w.poll c now true true).1.isOpen = true := by
          rw [← Bool.not_eq_false, hs.open_]
          simp [hnb, hnt]
        have hact := hs.act ho
        have hping := hs.ping ho
        simp only [Ws.step] at ha ⊢
        have hlook : ∀ as, look t0 (h ++ [⟨now, .poll true true, as⟩]) = now := fun as => by rw [look_snoc]; rfl
        constructor
        · exact ho
        · rw [hlook, lastTime_snoc]; exact Nat.le_refl _
        · rw [hlook, hping]; split <;> omega
        · rw [hlook, hact]; split <;> omega
        · rw [hlook, hping]; split <;> omega
        · rw [hlook, hping, hact, hs.queue]
          by_cases hq : w.queue.any Frame.alive = true
          · left; rw [if_pos hq]; split <;> omega
          · rw [if_neg hq]
            rcases i5 with i5 | ⟨j1, j2, j3, j4⟩
            · by_cases hd : c.interval ≤ now - w.lastPing
              · rw [if_pos hd]
                right
                refine ⟨by omega, by omega, by omega, .inr ⟨h, _, [], rfl, ?_, rfl, by simp⟩⟩
                obtain ⟨i, hi⟩ := hs.pinged.2 ⟨hd, rfl⟩
                exact List.any_eq_true.2 ⟨_, hi, rfl⟩
              · rw [if_neg hd]; left; exact i5
            · have hd : ¬ c.interval ≤ now - w.lastPing := by omega
              rw [if_neg hd]
              right
              rcases j4 with j4 | ⟨g1, x, g2, k1, k2, k3, k4⟩
              · exact absurd j4 hq
              · have ha' : Answered l (g1 ++ x :: (g2 ++ [⟨now, .poll true true, (w.poll c now true true).2⟩])) := by
                  rw [k1] at ha; simpa using ha
                have hle := heardBy_quiet k4 rfl (answered_split ha' k2)
                simp only [k3] at hle
                refine ⟨j1, j2, hle, .inr ⟨g1, x, g2 ++ [⟨now, .poll true true, (w.poll c now true true).2⟩], by simp [k1], k2, k3, ?_⟩⟩
                intro y hy
                rcases List.mem_append.1 hy with hy | hy
                · exact k4 y hy
                · simp only [List.mem_singleton] at hy; subst hy; rfl

/-- **C78, keeping it.** With pings every `interval` and the given `timeout`: if the transport is polled at least every `d`, the
server lets something be heard within `l` of every ping, nothing fails, and `l + d` and `l + 2 * d` leave room for that, then the
connection is never given up. What is missing is a caller which is sometimes late (`c78_stall`). -/
theorem c78_kept_partial {c : Cfg} {l d t0 : Nat} (h1 : l + d < c.interval) (h2 : c.interval + l + 2 * d ≤ c.timeout) {h : List Item}
    {w : Ws} (hr : Run c t0 h w) (hf : ∀ x ∈ h, x.fine = true) (hp : Prompt d t0 h) (ha : Answered l h)
    (hc : ∃ x ∈ h, ∃ b, x.ev = .connect b) : w.isOpen = true := by
  rcases kept_inv h1 h2 hr hf hp ha with ⟨_, _, h⟩ | h
  · obtain ⟨x, hx, b, hb⟩ := hc
    exact absurd hb (h x hx b)
  · exact h.open_

/-- Runs, computed. -/
def runAll (c : Cfg) (w : Ws) : List (Nat × Ev) → List Item × Ws
  | [] => ([], w)
  | (t, e) :: es => let r := runAll c (w.step c t e).1 es; (⟨t, e, (w.step c t e).2⟩ :: r.1, r.2)

theorem run_append {c : Cfg} {t0 : Nat} {h : List Item} {w : Ws} (hr : Run c t0 h w) (es : List (Nat × Ev))
    (hs : List.Pairwise (· ≤ ·) (lastTime t0 h :: es.map (·.1))) : Run c t0 (h ++ (runAll c w es).1) (runAll c w es).2 := by
  induction es generalizing h w with
  | nil => simpa [runAll] using hr
  | cons e es ih =>
    obtain ⟨t, e⟩ := e
    simp only [List.map_cons, List.pairwise_cons] at hs
    have := ih (Run.step (e := e) hr (hs.1 t (by simp))) (by rw [lastTime_snoc]; exact List.pairwise_cons.2 hs.2)
    simpa [runAll] using this

/-- The configuration of the program: a ping every 10 s, given up after 30 s. -/
def programCfg : Cfg := ⟨10000, 30000⟩

/-- The base station is polled every 5 s, the server answers each ping. -/
def aliveEvents : List (Nat × Ev) :=
  [(0, .connect true), (5000, .poll true true), (10000, .poll true true), (10100, .arrive (.pong [1])), (15000, .poll true true),
   (17000, .arrive (.binary [7, 8])), (18000, .arrive (.ping [9])), (20000, .poll true true), (20200, .arrive (.pong [2])),
   (25000, .poll true true)]

example : let r := runAll programCfg (Ws.new 0) aliveEvents
    Run programCfg 0 r.1 r.2 ∧ (∀ x ∈ r.1, x.fine = true) ∧ Prompt 5000 0 r.1 ∧ Answered 4000 r.1 ∧ (∃ x ∈ r.1, ∃ b, x.ev = .connect b) ∧
      r.2.isOpen = true ∧ got r.1 = [[7, 8]] ∧ ponged r.1 = [[9]] ∧ pingAt 0 r.1 = 20000 ∧ heard 0 r.1 = (25000, false) := by
  refine ⟨by simpa using run_append (c := programCfg) (t0 := 0) Run.start aliveEvents (by decide), by decide, ?_, ?_,
    ⟨⟨0, .connect true, []⟩, by decide, true, rfl⟩, by decide, by decide, by decide, by decide, by decide⟩
  · simp [Prompt, aliveEvents, runAll, lookStep]
  · simp [Answered, aliveEvents, runAll, programCfg, Ws.new, Ws.step, Ws.connect, Ws.poll, Ws.readAll, Ws.pingDue, heardBy, Act.isPing,
      Frame.alive]

/-- The server sends a message every 5 s and answers, but the base station is busy for 30 s. -/
def stallEvents : List (Nat × Ev) :=
  [(0, .connect true), (100, .poll true true), (5000, .arrive (.binary [1])), (10000, .arrive (.binary [2])),
   (15000, .arrive (.binary [3])), (20000, .arrive (.binary [4])), (25000, .arrive (.binary [5])), (30000, .arrive (.ping [6])),
   (30000, .poll true true)]

/-- **C78 is false of a caller which was busy**: the timeout is looked at before what waits is read, so that a connection on which the
server was heard all the time is given up, and the five messages which wait are lost. -/
theorem c78_stall : ∃ h w, Run programCfg 0 h w ∧ (∀ x ∈ h, x.fine = true) ∧ came h = [[1], [2], [3], [4], [5]] ∧ got h = [] ∧
    w.isOpen = false ∧ w.queue = [] :=
  ⟨_, _, by simpa using run_append (c := programCfg) (t0 := 0) Run.start stallEvents (by decide), by decide, by decide, by decide,
    by decide, by decide⟩

/-- A server which has fallen silent: given up at the first poll 30 s after it was last heard, not before. -/
def silentEvents : List (Nat × Ev) :=
  [(0, .connect true), (4000, .arrive (.binary [1])), (5000, .poll true true), (34999, .poll true true), (35000, .poll true true)]

example : (runAll programCfg (Ws.new 0) silentEvents).2.isOpen = false ∧
    (runAll programCfg (Ws.new 0) (silentEvents.take 4)).2.isOpen = true := by decide

end Verif.Net.Ws
