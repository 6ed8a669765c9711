import Verif.Llc.AckProps
/-!
# C27 — received acknowledged messages are answered and delivered
-/
namespace Verif.Llc
open Verif.Tdma Verif.TxReceipt
open Verif.Umac (Addr SsiType)

/-! ## Specification -/

/-- The sequence number of a received BL-DATA or BL-ADATA whose FCS, if announced, is right. -/
def dataIn : List Bool → Option Bool
  | false :: f :: false :: false :: _ :: ns :: body => if f = false ∨ fcsOk body = .ok true then some ns else none
  | false :: f :: false :: true :: ns :: body => if f = false ∨ fcsOk body = .ok true then some ns else none
  | _ => none

/-- What an acknowledgement is about: station, timeslot, sequence number. -/
structure Key where
  ssi : Nat
  ts : Nat
  nr : Bool
  deriving DecidableEq, Repr

/-- Is this entry the reception of an acknowledged message with this key? -/
def Item.receives (x : Key) : Item → Bool
  | .ev (.ind addr ts pdu) => decide (dataIn pdu = some x.nr ∧ addr.ssi = x.ssi ∧ ts = x.ts)
  | _ => false

/-- How many acknowledged messages with this key were received. -/
def received (tr : List Item) (x : Key) : Nat := tr.countP (Item.receives x)

/-- The acknowledgement in the header of a BL-ADATA. -/
def adataNr : List Bool → Option Bool
  | false :: _ :: false :: false :: nr :: _ :: _ => some nr
  | _ => none

/-- Does this entry, after `pre`, answer the key? A BL-ACK does, and the first transmission of a message that carries
the acknowledgement. -/
def answersItem (x : Key) (pre : List Item) : Item → Nat
  | .out (.ack addr nr ts _) => if addr.ssi = x.ssi ∧ ts = x.ts ∧ nr = x.nr then 1 else 0
  | .out (.data b addr ts pdu) => if sends pre b = 0 ∧ addr.ssi = x.ssi ∧ ts = x.ts ∧ adataNr pdu = some x.nr then 1 else 0
  | _ => 0

/-- The answers in a trace (built from the end). -/
def answersR (x : Key) : List Item → Nat
  | [] => 0
  | i :: r => answersR x r + answersItem x r.reverse i
/-- The answers in a trace. -/
def answers (tr : List Item) (x : Key) : Nat := answersR x tr.reverse

theorem answers_snoc (tr : List Item) (i : Item) (x : Key) : answers (tr ++ [i]) x = answers tr x + answersItem x tr i := by
  simp [answers, answersR]

/-! ## Accounting -/

/-- A queued message that carries the acknowledgement and was not handed down yet. -/
def Msg.holds (x : Key) (m : Msg) : Bool := decide (m.submitted = false ∧ m.nr = some x.nr ∧ m.addr.ssi = x.ssi ∧ m.ts = x.ts)
def OwedAck.is (x : Key) (a : OwedAck) : Bool := decide (a.nr = x.nr ∧ a.addr.ssi = x.ssi ∧ a.ts = x.ts)

def waiting (out : List Msg) (x : Key) : Nat := out.countP (Msg.holds x)
def owed (acks : List OwedAck) (x : Key) : Nat := acks.countP (OwedAck.is x)

/-- The books balance. -/
def Balanced (s : Llc) (tr : List Item) : Prop := ∀ x, received tr x = answers tr x + waiting s.out x + owed s.acks x

theorem received_append (a b : List Item) (x : Key) : received (a ++ b) x = received a x + received b x := by simp [received]
theorem received_outs (es : List Emit) (x : Key) : received (es.map .out) x = 0 := by
  rw [received, List.countP_eq_zero]
  intro i hi
  rw [List.mem_map] at hi
  obtain ⟨e, _, rfl⟩ := hi
  simp [Item.receives]

/-- Outputs that are no answers. -/
theorem answers_outs (tr : List Item) (es : List Emit) (x : Key)
    (h : ∀ e ∈ es, match e with | .ack .. => False | .data b .. => 0 < sends tr b | _ => True) :
    answers (tr ++ es.map .out) x = answers tr x := by
  induction es generalizing tr with
  | nil => simp
  | cons e es ih =>
    have he := h e (by simp)
    rw [List.map_cons, ← List.singleton_append, ← List.append_assoc, ih, answers_snoc]
    · cases e <;> simp_all [answersItem]
      omega
    · intro e' he'
      have := h e' (by simp [he'])
      cases e' <;> simp_all
      rw [sends_append]; omega

theorem answers_acks (tr : List Item) (acks : List OwedAck) (x : Key) :
    answers (tr ++ (acks.map OwedAck.emit).map .out) x = answers tr x + owed acks x := by
  induction acks generalizing tr with
  | nil => simp [owed]
  | cons a acks ih =>
    rw [List.map_cons, List.map_cons, ← List.singleton_append, ← List.append_assoc, ih, answers_snoc]
    simp only [owed, List.countP_cons, OwedAck.emit, answersItem, OwedAck.is]
    by_cases h : a.addr.ssi = x.ssi ∧ a.ts = x.ts ∧ a.nr = x.nr
    · have h' : a.nr = x.nr ∧ a.addr.ssi = x.ssi ∧ a.ts = x.ts := ⟨h.2.2, h.1, h.2.1⟩
      simp only [h, h', and_self, if_true, decide_true]; omega
    · have h' : ¬ (a.nr = x.nr ∧ a.addr.ssi = x.ssi ∧ a.ts = x.ts) := fun ⟨h1, h2, h3⟩ => h ⟨h2, h3, h1⟩
      simp only [h, h', if_false, decide_false]; simp

theorem takeAck_spec (ts ssi : Nat) (acks : List OwedAck) (x : Key) :
    owed acks x = owed (takeAck ts ssi acks).2 x +
      (if (takeAck ts ssi acks).1 = some x.nr ∧ ssi = x.ssi ∧ ts = x.ts then 1 else 0) := by
  induction acks with
  | nil => simp [takeAck, owed]
  | cons a r ih =>
    unfold takeAck
    split
    · rename_i h
      obtain ⟨rfl, rfl⟩ := h
      simp only [owed, List.countP_cons, OwedAck.is, Option.some.injEq, decide_eq_true_eq]
    · simp only [owed, List.countP_cons] at *
      rw [ih]; omega

theorem holds_pdu (x : Key) (m : Msg) (hm : m.submitted = false) (tr : List Item) (h0 : sends tr m.id = 0) :
    answersItem x tr (.out m.emit) = if m.holds x then 1 else 0 := by
  have : (adataNr m.pdu = some x.nr) ↔ m.nr = some x.nr := by
    unfold Msg.pdu
    cases m.nr <;> simp [adataNr]
  simp only [answersItem, Msg.emit, Msg.holds, h0, hm, this, true_and, decide_eq_true_eq]
  by_cases h : m.addr.ssi = x.ssi ∧ m.ts = x.ts ∧ m.nr = some x.nr
  · have h' : m.nr = some x.nr ∧ m.addr.ssi = x.ssi ∧ m.ts = x.ts := ⟨h.2.2, h.1, h.2.1⟩
    simp only [h, h', and_self, if_true]
  · have h' : ¬ (m.nr = some x.nr ∧ m.addr.ssi = x.ssi ∧ m.ts = x.ts) := fun ⟨h1, h2, h3⟩ => h ⟨h2, h3, h1⟩
    simp only [h, h', if_false]

theorem frees_balance (out : List Msg) (blocked : List Nat) (tr : List Item) (x : Key)
    (h0 : ∀ m ∈ out, m.submitted = false → sends tr m.id = 0) (hu : out.Pairwise fun a b => a.id ≠ b.id) :
    answers (tr ++ (sendFree blocked out).2.map .out) x + waiting (sendFree blocked out).1 x = answers tr x + waiting out x := by
  induction out generalizing blocked tr with
  | nil => simp [sendFree, waiting]
  | cons m out ih =>
    rw [List.pairwise_cons] at hu
    unfold sendFree
    by_cases hs : m.submitted = true
    · simp only [hs, if_true]
      have := ih (m.addr.ssi :: blocked) tr (fun a ha => h0 a (by simp [ha])) hu.2
      simp only [waiting, List.countP_cons] at *; omega
    · rw [Bool.not_eq_true] at hs
      simp only [hs, Bool.false_eq_true, if_false]
      split
      · have := ih blocked tr (fun a ha => h0 a (by simp [ha])) hu.2
        simp only [waiting, List.countP_cons] at *; omega
      · have hm0 := h0 m (by simp) hs
        have := ih (m.addr.ssi :: blocked) (tr ++ [.out m.emit]) (by
          intro a ha hsa
          rw [sends_append, h0 a (by simp [ha]) hsa]
          have := hu.1 a ha
          simp [sends, Item.isSend, Msg.emit, this]) hu.2
        rw [answers_snoc, holds_pdu x m hs tr hm0] at this
        have hsub : Msg.holds x m.submit = false := by simp [Msg.holds, Msg.submit]
        simp only [waiting, List.countP_cons, hsub] at *
        rw [List.map_cons, ← List.singleton_append, ← List.append_assoc]
        simp only [Bool.false_eq_true, if_false] at *
        omega

theorem drops_balance {out : List Msg} (ssis : List Nat) {out' : List Msg} {es : List Emit} (he : dropAll out ssis = .ok (out', es)) (x : Key) :
    waiting out' x = waiting out x ∧ ∀ e ∈ es, ∃ b, e = .lost b := by
  induction ssis generalizing out es with
  | nil => simp [dropAll] at he; obtain ⟨rfl, rfl⟩ := he; simp
  | cons ssi ssis ih =>
    simp only [dropAll] at he
    split at he
    · cases he
    · rename_i m rest htake
      simp only [Res.bind_eq_ok] at he
      obtain ⟨c, _, ⟨out1, es1⟩, h1, h2⟩ := he
      cases h2
      obtain ⟨l1, l2, rfl, rfl, hs, hsub⟩ := takeOutstanding_some htake
      obtain ⟨h3, h4⟩ := ih h1
      refine ⟨?_, ?_⟩
      · rw [h3]
        have : Msg.holds x m = false := by simp [Msg.holds, hsub]
        simp [waiting, List.countP_append, List.countP_cons, this]
      · intro e he
        rw [List.mem_cons] at he
        rcases he with rfl | he
        · exact ⟨_, rfl⟩
        · exact h4 e he

theorem retry_facts {tr : List Item} {m : Msg} (h : Entry tr m) (now : Time) :
    (m.retry now).1.submitted = m.submitted ∧ (m.retry now).1.nr = m.nr ∧ (m.retry now).1.addr = m.addr ∧ (m.retry now).1.ts = m.ts ∧
    (m.retry now).1.id = m.id ∧ (∀ e ∈ (m.retry now).2.1, e = m.emit ∧ m.submitted = true) := by
  have hn : (m.noteDone now).submitted = m.submitted ∧ (m.noteDone now).nr = m.nr ∧ (m.noteDone now).addr = m.addr ∧
      (m.noteDone now).ts = m.ts ∧ (m.noteDone now).id = m.id ∧ (m.noteDone now).emit = m.emit := by
    unfold Msg.noteDone; split <;> simp [Msg.emit, Msg.pdu]
  have hsub : (m.noteDone now).timedOut now = true → m.submitted = true := by
    intro ht
    cases hs : m.submitted with
    | true => rfl
    | false =>
      obtain ⟨_, _, h1, h2⟩ := h.fresh hs
      exfalso
      have : m.noteDone now = m := by
        unfold Msg.noteDone
        rw [if_neg]
        rw [Bool.or_eq_true, isTransmitted_iff, isDiscarded_iff]; omega
      rw [this] at ht
      simp [Msg.timedOut, h1] at ht
  unfold Msg.retry
  simp only
  split
  · rename_i ht
    have := hsub ht
    split
    · simp only [Msg.submit, hn, this, true_and]
      intro e he; simp at he; exact ⟨he, trivial⟩
    · simp [hn]
  · simp [hn]

theorem waiting_congr {out : List Msg} {g : Msg → Msg} (x : Key) (h : ∀ m ∈ out, Msg.holds x (g m) = Msg.holds x m) :
    waiting (out.map g) x = waiting out x := by
  unfold waiting
  rw [List.countP_map]
  exact List.countP_congr (fun m hm => by simp only [Function.comp]; rw [h m hm])

theorem balanced_tickEnd {s : Llc} {tr : List Item} (hrel : Rel s tr) (hb : Balanced s tr) {s' : Llc} {es : List Emit}
    (he : s.tickEnd = .ok (s', es)) : Balanced s' (tr ++ [.ev .tickEnd] ++ es.map .out) ∧ s'.acks = [] := by
  simp only [Llc.tickEnd, Llc.retransmit, Res.bind_eq_ok] at he
  obtain ⟨⟨s1, es1⟩, ⟨⟨d1, d2⟩, hd, h1⟩, he⟩ := he
  cases h1; cases he
  refine ⟨?_, rfl⟩
  intro x
  have hfacts : ∀ m ∈ s.out, _ := fun m hm => retry_facts (hrel.inv.ent m hm) s.now
  have hw1 : waiting ((s.out.map fun m => m.retry s.now).map fun r => r.1) x = waiting s.out x := by
    rw [List.map_map]
    apply waiting_congr
    intro m hm
    obtain ⟨h1, h2, h3, h4, _⟩ := hfacts m hm
    simp only [Function.comp, Msg.holds, h1, h2, h3, h4]
  obtain ⟨hw2, hd2⟩ := drops_balance _ hd x
  have ha0 : answers (tr ++ [.ev .tickEnd]) x = answers tr x := by rw [answers_snoc]; rfl
  -- the retransmissions answer nothing new
  have ha1 : answers (tr ++ [.ev .tickEnd] ++ (((s.out.map fun m => m.retry s.now).map fun r => r.2.1).flatten ++ d2).map .out) x = answers tr x := by
    rw [answers_outs, ha0]
    intro e he
    rw [List.mem_append] at he
    rcases he with he | he
    · rw [List.mem_flatten] at he
      obtain ⟨l, hl, he⟩ := he
      rw [List.map_map, List.mem_map] at hl
      obtain ⟨m, hm, rfl⟩ := hl
      obtain ⟨h1, h2⟩ := (hfacts m hm).2.2.2.2.2 e he
      subst h1
      simp only [Msg.emit]
      rw [sends_append, (hrel.inv.ent m hm).sent h2]; omega
    · obtain ⟨b, rfl⟩ := hd2 e he; trivial
  -- what is sent for the first time
  have hsub := (dropAll_sub _ hd).1
  have hunsent : ∀ m ∈ d1, m.submitted = false →
      sends (tr ++ [.ev .tickEnd] ++ (((s.out.map fun m => m.retry s.now).map fun r => r.2.1).flatten ++ d2).map .out) m.id = 0 := by
    intro m hm hu
    have hm' := hsub.subset hm
    rw [List.map_map, List.mem_map] at hm'
    obtain ⟨y, hy, hym⟩ := hm'
    obtain ⟨hy1, _, _, _, hy5, _⟩ := hfacts y hy
    have hyu : y.submitted = false := by
      rw [← hy1]; simp only [Function.comp] at hym; rw [hym]; exact hu
    have hyid : y.id = m.id := by
      simp only [Function.comp] at hym; rw [← hym]; exact hy5.symm
    rw [sends_append, sends_append, ← hyid, ((hrel.inv.ent y hy).fresh hyu).1]
    have h2 : sends [.ev .tickEnd] y.id = 0 := by simp [sends, Item.isSend]
    rw [h2]
    simp only [Nat.zero_add]
    unfold sends
    rw [List.countP_eq_zero]
    intro i hi hs
    rw [List.mem_map] at hi
    obtain ⟨e, he, rfl⟩ := hi
    rw [List.mem_append] at he
    rcases he with he | he
    · rw [List.mem_flatten] at he
      obtain ⟨l, hl, he⟩ := he
      rw [List.map_map, List.mem_map] at hl
      obtain ⟨z, hz, rfl⟩ := hl
      obtain ⟨h1, h2⟩ := (hfacts z hz).2.2.2.2.2 e he
      subst h1
      simp only [Item.isSend, Msg.emit, beq_iff_eq] at hs
      -- same number, same message
      have hzy : z = y := by
        have hu := hrel.inv.uniq
        obtain ⟨l1, l2, hl⟩ := List.mem_iff_append.1 hz
        rw [hl, List.pairwise_append, List.pairwise_cons] at hu
        rw [hl, List.mem_append, List.mem_cons] at hy
        rcases hy with hy | hy | hy
        · exact absurd hs.symm (hu.2.2 y hy z (by simp))
        · exact hy.symm
        · exact absurd hs (hu.2.1.1 y hy)
      rw [hzy, hyu] at h2; cases h2
    · obtain ⟨b, rfl⟩ := hd2 e he
      simp [Item.isSend] at hs
  have hid : ((s.out.map fun m => m.retry s.now).map fun r => r.1).Pairwise fun a b => a.id ≠ b.id := by
    rw [List.map_map, List.pairwise_map]
    refine List.Pairwise.imp_of_mem ?_ hrel.inv.uniq
    intro a b ha hb hab
    simp only [Function.comp]
    rw [(hfacts a ha).2.2.2.2.1, (hfacts b hb).2.2.2.2.1]; exact hab
  have hf := frees_balance d1 [] _ x hunsent (List.Pairwise.sublist hsub hid)
  rw [ha1, hw2, hw1] at hf
  -- acknowledgements and unacknowledged data
  have hlast : answers (tr ++ [.ev .tickEnd] ++ ((((s.out.map fun m => m.retry s.now).map fun r => r.2.1).flatten ++ d2 ++ (sendFree [] d1).2 ++
      s.acks.map OwedAck.emit ++ s.udata.map fun u => Emit.udata u.1 u.2 : List Emit)).map .out) x =
      answers (tr ++ [.ev .tickEnd] ++ (((s.out.map fun m => m.retry s.now).map fun r => r.2.1).flatten ++ d2).map .out ++ ((sendFree [] d1).2).map .out) x + owed s.acks x := by
    rw [← answers_acks]
    rw [List.map_append, ← List.append_assoc]
    rw [answers_outs]
    · simp only [List.map_append, List.append_assoc]
    · intro e he
      rw [List.mem_map] at he
      obtain ⟨u, _, rfl⟩ := he
      trivial
  have hb := hb x
  rw [hlast, received_append, received_outs, received_append]
  have : received [.ev .tickEnd] x = 0 := by simp [received, Item.receives]
  rw [this]
  simp only [owed, List.countP_nil]
  simp only [owed] at hb
  omega

theorem dataIn_of_parse {k : Kind} {pdu : List Bool} (hk : kindOf pdu = some k) (h1 : k ≠ .advanced) (h2 : k ≠ .other) :
    (parseBl k pdu = none → dataIn pdu = none) ∧
    ∀ f ns nr body, parseBl k pdu = some (f, ns, nr, body) →
      (fcsGood f body = .ok true → dataIn pdu = ns) ∧ (fcsGood f body = .ok false → dataIn pdu = none) := by
  match pdu with
  | [] => simp [kindOf] at hk
  | [a] => cases a <;> simp [kindOf] at hk
  | [a, b] => cases a <;> simp [kindOf] at hk
  | [a, b, c] => cases a <;> cases b <;> cases c <;> simp [kindOf] at hk
  | a :: b :: c :: d :: r =>
    cases a <;> cases b <;> cases c <;> cases d <;> simp [kindOf] at hk <;> subst hk
    all_goals first
      | exact absurd rfl h1
      | exact absurd rfl h2
      | (rcases r with _ | ⟨y, _ | ⟨z, r⟩⟩ <;>
          simp [parseBl, BlAdata.dec, BlData.dec, BlUdata.dec, BlAck.dec, rdHead_run, Verif.Codec.Rd.flag, dataIn, fcsGood] <;>
          (try intro f ns nr body) <;> (try (intro a1; intro a2; intro a3; intro a4)) <;> (try subst_vars) <;> simp_all)

theorem processAck_balance {s : Llc} {ssi : Nat} {nr : Bool} {s' : Llc} {es : List Emit} (h : s.processAck ssi nr = .ok (s', es)) :
    s'.acks = s.acks ∧ (∀ x, waiting s'.out x = waiting s.out x) ∧ ∀ e ∈ es, ∃ b, e = .acknowledged b := by
  unfold Llc.processAck at h
  split at h
  · cases h; simp
  · rename_i m rest ht
    obtain ⟨l1, l2, hout, rfl, _, hsub⟩ := takeOutstanding_some ht
    have hh : ∀ x, Msg.holds x m = false := fun x => by simp [Msg.holds, hsub]
    split at h
    · cases h
      refine ⟨rfl, fun x => ?_, by simp⟩
      simp [waiting, hout, List.countP_append, List.countP_cons, hh]
    · split at h
      · simp only [Res.bind_eq_ok] at h
        obtain ⟨c, _, h⟩ := h
        cases h
        refine ⟨rfl, fun x => ?_, by simp⟩
        simp [waiting, hout, List.countP_append, List.countP_cons, hh]
      · cases h
        refine ⟨rfl, fun x => ?_, by simp⟩
        simp [waiting, hout, List.countP_append, List.countP_cons, hh]

theorem dataIn_none (pdu : List Bool) (h : kindOf pdu = none ∨ kindOf pdu = some .advanced ∨ kindOf pdu = some .other) :
    dataIn pdu = none := by
  match pdu with
  | [] => rfl
  | [a] => cases a <;> rfl
  | [a, b] => cases a <;> rfl
  | [a, b, c] => cases a <;> cases b <;> cases c <;> rfl
  | a :: b :: c :: d :: r =>
    cases a
    · cases c <;> cases d <;> simp [kindOf] at h
    · rfl

theorem balanced_ind {s : Llc} {tr : List Item} (hb : Balanced s tr) (addr : Addr) (ts : Nat) (pdu : List Bool) {s' : Llc} {es : List Emit}
    (he : s.unitdataInd addr ts pdu = .ok (s', es)) : Balanced s' (tr ++ [.ev (.ind addr ts pdu)] ++ es.map .out) := by
  have ha0 : ∀ x, answers (tr ++ [.ev (.ind addr ts pdu)]) x = answers tr x := by intro x; rw [answers_snoc]; rfl
  have hrec : ∀ x, received [.ev (.ind addr ts pdu)] x = if dataIn pdu = some x.nr ∧ addr.ssi = x.ssi ∧ ts = x.ts then 1 else 0 := by
    intro x; simp [received, Item.receives, List.countP_cons]
  have hsame : dataIn pdu = none → Balanced s (tr ++ [.ev (.ind addr ts pdu)]) := by
    intro hd x
    rw [received_append, hrec, ha0, hd]
    simpa using hb x
  have hnone := dataIn_none pdu
  have hbl : ∀ k, kindOf pdu = some k → k ≠ .advanced → k ≠ .other → s.rxBl k addr ts pdu = .ok (s', es) →
      Balanced s' (tr ++ [.ev (.ind addr ts pdu)] ++ es.map .out) := by
    intro k hk hk1 hk2 he
    obtain ⟨hp0, hp1⟩ := dataIn_of_parse hk hk1 hk2
    unfold Llc.rxBl at he
    split at he
    · rename_i hp
      cases he; simpa using hsame (hp0 hp)
    · rename_i f ns nr body hp
      obtain ⟨hg1, hg2⟩ := hp1 f ns nr body hp
      rw [Res.bind_eq_ok] at he
      obtain ⟨good, hg, he⟩ := he
      cases good with
      | false => simp at he; obtain ⟨rfl, rfl⟩ := he; simpa using hsame (hg2 hg)
      | true =>
        have hd := hg1 hg
        simp only [if_true, Llc.acceptBl, Res.bind_eq_ok] at he
        obtain ⟨⟨s1, es1⟩, h1, he⟩ := he
        cases he
        have hs1 : s1.acks = (s.owe addr ts ns).acks ∧ (∀ x, waiting s1.out x = waiting s.out x) ∧ ∀ e ∈ es1, ∃ b, e = .acknowledged b := by
          have hout : (s.owe addr ts ns).out = s.out := by cases ns <;> rfl
          cases nr with
          | none => cases h1; exact ⟨rfl, by rw [hout]; simp, by simp⟩
          | some nr =>
            obtain ⟨h1, h2, h3⟩ := processAck_balance h1
            exact ⟨h1, by rw [hout] at h2; exact h2, h3⟩
        intro x
        rw [answers_outs, ha0, received_append, received_outs, received_append, hrec, hd]
        · have hb := hb x
          rw [hs1.2.1, hs1.1]
          cases ns with
          | none => simp only [Llc.owe]; simp; omega
          | some n =>
            simp only [Llc.owe, owed, List.countP_append, List.countP_cons, List.countP_nil, OwedAck.is, Option.some.injEq,
              decide_eq_true_eq] at *
            omega
        · intro e he
          rw [List.mem_append] at he
          rcases he with he | he
          · obtain ⟨b, rfl⟩ := hs1.2.2 e he; trivial
          · unfold deliver at he; split at he
            · cases he
            · simp at he; subst he; trivial
  unfold Llc.unitdataInd at he
  split at he
  · rename_i hk
    cases he
    simpa using hsame (hnone (.inl hk))
  · rename_i hk; cases he; simpa using hsame (hnone (.inr (.inl hk)))
  · cases he
  · rename_i k h1 h2 hk
    exact hbl k hk (by rintro rfl; exact h1 rfl) (by rintro rfl; exact h2 rfl) he

theorem balanced_req {s : Llc} {tr : List Item} (hb : Balanced s tr) (addr : Addr) (ts : Nat) (st fcs ea : Bool) (sdu : List Bool) {s' : Llc}
    (he : s.dataReq addr ts st fcs ea sdu = .ok s') : Balanced s' (tr ++ [.ev (.dataReq addr ts st fcs ea sdu)]) := by
  unfold Llc.dataReq at he
  split at he
  · cases he
  · cases he
    intro x
    have hb := hb x
    rw [answers_snoc, received_append, hb]
    have h1 := takeAck_spec ts addr.ssi s.acks x
    have h2 : received [.ev (.dataReq addr ts st fcs ea sdu)] x = 0 := by simp [received, Item.receives]
    have h3 : answersItem x tr (.ev (.dataReq addr ts st fcs ea sdu)) = 0 := rfl
    rw [h2, h3]
    simp only [waiting, List.countP_append, List.countP_cons, List.countP_nil, Msg.holds, true_and, decide_eq_true_eq]
    omega

theorem balanced_step {s : Llc} {tr : List Item} (hrel : Rel s tr) (hb : Balanced s tr) (e : Ev) {s' : Llc} {es : List Emit}
    (he : s.step e = .ok (s', es)) : Balanced s' (tr ++ [.ev e] ++ es.map .out) := by
  have hquiet : ∀ (e : Ev) (s' : Llc), (∀ x, Item.receives x (.ev e) = false) → s'.acks = s.acks → (∀ x, waiting s'.out x = waiting s.out x) →
      Balanced s' (tr ++ [.ev e]) := by
    intro e s' h1 h2 h3 x
    rw [answers_snoc, received_append, h2, h3]
    have : received [.ev e] x = 0 := by simp [received, h1]
    rw [this]
    have := hb x
    simp only [answersItem]; omega
  cases e with
  | dataReq addr ts st fcs ea sdu =>
    simp only [Llc.step, Res.bind_eq_ok] at he
    obtain ⟨s1, h1, h2⟩ := he
    cases h2
    simpa using balanced_req hb addr ts st fcs ea sdu h1
  | unitdataReq addr sdu => cases he; simpa using hquiet (.unitdataReq addr sdu) (s.unitdataReq addr sdu) (fun x => rfl) rfl (fun x => rfl)
  | ind addr ts pdu => exact balanced_ind hb addr ts pdu he
  | mac id d =>
    cases he
    have := hquiet (.mac id d) { s with out := s.out.map fun m => m.report id d } (fun x => rfl) rfl (fun x => by
      apply waiting_congr
      intro m _
      unfold Msg.report; split <;> rfl)
    simpa using this
  | tickStart t => cases he; simpa using hquiet (.tickStart t) { s with now := t } (fun x => rfl) rfl (fun x => rfl)
  | tickEnd => exact (balanced_tickEnd hrel hb he).1

theorem balanced_run {evs : List Ev} {s : Llc} {tr : List Item} (h : Llc.init.run evs = .ok (s, tr)) : Balanced s tr := by
  suffices ∀ (s0 : Llc) (tr0 : List Item), Rel s0 tr0 → Balanced s0 tr0 → ∀ s tr, s0.run evs = .ok (s, tr) → Balanced s (tr0 ++ tr) by
    have := this Llc.init [] rel_init (by intro x; simp [received, answers, answersR, waiting, owed, Llc.init]) s tr h
    simpa using this
  clear h s tr
  intro s0 tr0 hrel hb s tr h
  induction evs generalizing s0 tr0 tr with
  | nil => simp [Llc.run] at h; obtain ⟨rfl, rfl⟩ := h; simpa using hb
  | cons e evs ih =>
    simp only [Llc.run, Res.bind_eq_ok] at h
    obtain ⟨⟨s1, es⟩, h1, ⟨s2, tr2⟩, h2, h3⟩ := h
    cases h3
    have := ih s1 _ (rel_step hrel e h1) (balanced_step hrel hb e h1) tr2 h2
    simpa using this

/-! ## The theorems -/

/-- At the end of every tick, for each station, timeslot and sequence number, the acknowledged messages received so far
are exactly those answered plus those whose answer rides on a distinct message to that station and timeslot that has
been requested and not been handed down yet. -/
theorem c27_answered {evs : List Ev} {s : Llc} {tr : List Item} (h : Llc.init.run evs = .ok (s, tr)) {s' : Llc} {es : List Emit}
    (he : s.step .tickEnd = .ok (s', es)) (x : Key) :
    ∃ w : List Nat, w.Nodup ∧
      received (tr ++ [.ev .tickEnd] ++ es.map .out) x = answers (tr ++ [.ev .tickEnd] ++ es.map .out) x + w.length ∧
      ∀ k ∈ w, sends (tr ++ [.ev .tickEnd] ++ es.map .out) k = 0 ∧
        ∃ r, (reqs tr)[k]? = some r ∧ r.addr.ssi = x.ssi ∧ r.ts = x.ts := by
  have hrel := rel_of_run h
  obtain ⟨hb, ha⟩ := balanced_tickEnd hrel (balanced_run h) he
  have hrel' := rel_tickEnd hrel he
  refine ⟨(s'.out.filter (Msg.holds x)).map Msg.id, ?_, ?_, ?_⟩
  · rw [List.Nodup, List.pairwise_map]
    exact List.Pairwise.filter _ hrel'.inv.uniq
  · rw [hb x, ha, List.length_map]
    simp [waiting, owed, List.countP_eq_length_filter]
  · intro k hk
    rw [List.mem_map] at hk
    obtain ⟨m, hm, rfl⟩ := hk
    rw [List.mem_filter] at hm
    obtain ⟨hm, hh⟩ := hm
    simp only [Msg.holds, decide_eq_true_eq] at hh
    have hent := hrel'.inv.ent m hm
    refine ⟨(hent.fresh hh.1).1, ⟨m.addr, m.ts, m.fcs, m.sdu⟩, ?_, hh.2.2.1, hh.2.2.2⟩
    have := hent.req
    have hreq : reqs (tr ++ [.ev .tickEnd]) = reqs tr := by rw [reqs_append]; simp [reqs, Item.req]
    rw [reqs_outs, hreq] at this
    exact this

/-- In particular, when no message to the station is waiting to be sent, everything received has been answered exactly once. -/
theorem c27_answered_exactly {evs : List Ev} {s : Llc} {tr : List Item} (h : Llc.init.run evs = .ok (s, tr)) {s' : Llc} {es : List Emit}
    (he : s.step .tickEnd = .ok (s', es)) (x : Key)
    (hidle : ∀ k r, (reqs tr)[k]? = some r → r.addr.ssi = x.ssi → 0 < sends (tr ++ [.ev .tickEnd] ++ es.map .out) k) :
    received (tr ++ [.ev .tickEnd] ++ es.map .out) x = answers (tr ++ [.ev .tickEnd] ++ es.map .out) x := by
  obtain ⟨w, _, h1, h2⟩ := c27_answered h he x
  cases w with
  | nil => simpa using h1
  | cons k w =>
    obtain ⟨h3, r, h4, h5, _⟩ := h2 k (by simp)
    have := hidle k r h4 h5
    omega

/-- The answers never run ahead of what was received. -/
theorem c27_no_spurious {evs : List Ev} {s : Llc} {tr : List Item} (h : Llc.init.run evs = .ok (s, tr)) (x : Key) :
    answers tr x ≤ received tr x := by
  have := balanced_run h x; omega

/-- Is this an indication to the MLE? -/
def Emit.isUp : Emit → Bool
  | .up .. => true
  | _ => false

/-- A received BL-DATA or BL-ADATA (without FCS) hands its SDU to the MLE exactly once, for the sending station; so
does a BL-UDATA, as unacknowledged data. -/
theorem c27_delivered {s s' : Llc} {es : List Emit} {addr : Addr} {ts : Nat} (nr ns : Bool) (sdu : List Bool) (hsdu : sdu ≠ []) :
    (s.step (.ind addr ts ([false, false, false, true, ns] ++ sdu)) = .ok (s', es) →
      es.filter Emit.isUp = [.up true addr ((ts + 1) % 4 + 1) false (some sdu)]) ∧
    (s.step (.ind addr ts ([false, false, false, false, nr, ns] ++ sdu)) = .ok (s', es) →
      es.filter Emit.isUp = [.up true addr ((ts + 1) % 4 + 1) false (some sdu)]) ∧
    (s.step (.ind addr ts ([false, false, true, false] ++ sdu)) = .ok (s', es) →
      es.filter Emit.isUp = [.up false addr ((ts + 1) % 4 + 1) false (some sdu)]) := by
  refine ⟨?_, ?_, ?_⟩
  · intro h
    simp [Llc.step, Llc.unitdataInd, kindOf, Llc.rxBl, parseBl, BlData.dec, rdHead_run, fcsGood, Llc.acceptBl, Llc.handleNr, deliver] at h
    rw [← h.2]; simp [Emit.isUp, hsdu, linkOf]
  · intro h
    simp [Llc.step, Llc.unitdataInd, kindOf, Llc.rxBl, parseBl, BlAdata.dec, rdHead_run, fcsGood, Llc.acceptBl, Llc.handleNr, deliver,
      Res.bind_eq_ok] at h
    obtain ⟨a, b, h1, h2, rfl⟩ := h
    obtain ⟨_, _, h3⟩ := processAck_balance h1
    rw [List.filter_append]
    have : b.filter Emit.isUp = [] := by
      rw [List.filter_eq_nil_iff]
      intro e he; obtain ⟨i, rfl⟩ := h3 e he; simp [Emit.isUp]
    rw [this]; simp [Emit.isUp, hsdu, linkOf]
  · intro h
    simp [Llc.step, Llc.unitdataInd, kindOf, Llc.rxBl, parseBl, BlUdata.dec, rdHead_run, fcsGood, Llc.acceptBl, Llc.handleNr, deliver] at h
    rw [← h.2]; simp [Emit.isUp, hsdu, linkOf]

/-! ## Cases and findings -/

/-- Two stations, one BL-DATA from each; a message to the first one takes its acknowledgement along. -/
example : outputs [.ind st1 1 [false, false, false, true, true, true], .ind st2 1 [false, false, false, true, false, true],
    .dataReq st1 1 false false true [true], .tickEnd] = some [
    .up true st1 3 false (some [true]), .up true st2 3 false (some [true]),
    .data 0 st1 1 [false, false, false, false, true, false, true], .ack st2 false 1 false] := by
  decide +kernel

/-- Finding: an acknowledgement taken along by a message waits as long as the message does. Here the station's BL-DATA
arrives while an earlier message to it is unacknowledged: no acknowledgement leaves for the next fifteen timeslots. -/
theorem c27_answer_delayed : outputs [.dataReq st1 1 false false true [true], .tickEnd, .mac 0 false, .tickEnd,
    .ind st1 1 [false, false, false, true, true, true], .dataReq st1 1 false false true [false], .tickEnd,
    .tickStart (fromInt 15), .tickEnd] = some [
    .data 0 st1 1 [false, false, false, true, false, true], .up true st1 3 false (some [true])] := by
  decide +kernel

/-- Finding: there is no duplicate detection. A BL-DATA repeated by the station (its acknowledgement was lost) is
handed to the MLE twice. -/
theorem c27_duplicate_delivered : outputs [.ind st1 1 [false, false, false, true, false, true], .tickEnd,
    .ind st1 1 [false, false, false, true, false, true], .tickEnd] = some [
    .up true st1 3 false (some [true]), .ack st1 false 1 false, .up true st1 3 false (some [true]), .ack st1 false 1 false] := by
  decide +kernel

/-- Finding: the FCS of a received PDU stays at the end of the SDU handed to the MLE. -/
theorem c27_fcs_in_sdu (s : Llc) (addr : Addr) (ts : Nat) (ns : Bool) (sdu : List Bool) (hsdu : sdu ≠ []) :
    ∃ s', s.step (.ind addr ts ([false, true, false, true, ns] ++ sdu ++ Fcs.fcsBits sdu)) =
      .ok (s', [.up true addr ((ts + 1) % 4 + 1) true (some (sdu ++ Fcs.fcsBits sdu))]) := by
  have hl : (Fcs.fcsBits sdu).length = 32 := by simp [Fcs.fcsBits]
  have hpos : 0 < sdu.length := List.length_pos_iff.2 hsdu
  have hok : fcsOk (sdu ++ Fcs.fcsBits sdu) = .ok true := by
    unfold fcsOk
    rw [if_neg (by simp [hl]), if_neg (by simp [hl]; omega)]
    have : (sdu ++ Fcs.fcsBits sdu).length - 32 = sdu.length := by simp [hl]
    rw [this]; simp
  refine ⟨{ s with acks := s.acks ++ [⟨addr, ns, ts⟩] }, ?_⟩
  simp [Llc.step, Llc.unitdataInd, kindOf, Llc.rxBl, parseBl, BlData.dec, rdHead_run, fcsGood, Llc.acceptBl, Llc.handleNr, deliver, hok,
    Llc.owe, hsdu, linkOf]

end Verif.Llc
