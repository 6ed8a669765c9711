import Verif.Umac.FraggerSteps
/-!
# C19 — fragmented downlink SDUs are reassembled exactly

The fragmenter is given any sequence of blocks (any number of bits already used, up to a byte boundary, and
any capacity up to a slot of 268 bits). The first part of this file is about what is sent, read with the
header readers of C37; the second part is about what the receiving side of this code base makes of it.
-/
namespace Verif.Umac
open Verif.Bits Verif.Codec

/-! ## Specification -/

/-- The kinds of PDU in a fragmented transmission. -/
inductive Kind where
  /-- a MAC-RESOURCE with a whole SDU -/
  | whole
  /-- a MAC-RESOURCE which starts a fragmented SDU -/
  | start
  | frag
  | fin
  deriving DecidableEq, Repr

/-- `bs` is one PDU of kind `k` of the message announced by `r`: a header which the reader of that kind of
PDU accepts, then `part` of an SDU, then fill bits exactly when the header says so. -/
inductive IsPdu (r : MacResource) : Kind → List Bool → List Bool → Prop
  | whole (hdr part : List Bool) (n len : Nat) (h63 : len ≠ 63)
      (h : ∀ rest, MacResource.dec.run (hdr ++ rest) =
        .ok (({ r with lengthInd := len, fillBits := decide (n > 0) } : MacResource).onAir, rest)) :
      IsPdu r .whole (hdr ++ (part ++ fillPattern n)) part
  | start (hdr part : List Bool)
      (h : ∀ rest, MacResource.dec.run (hdr ++ rest) =
        .ok (({ r with lengthInd := 63, fillBits := false } : MacResource).onAir, rest)) :
      IsPdu r .start (hdr ++ part) part
  | frag (hdr part : List Bool) (n : Nat)
      (h : ∀ rest, MacFrag.dec.run (hdr ++ rest) = .ok (⟨decide (n > 0)⟩, rest)) :
      IsPdu r .frag (hdr ++ (part ++ fillPattern n)) part
  | fin (hdr part : List Bool) (n len : Nat)
      (h : ∀ rest, MacEndDl.dec.run (hdr ++ rest) = .ok (⟨decide (n > 0), 0, len, none, none⟩, rest))
      (hlen : (hdr ++ (part ++ fillPattern n)).length = 8 * len) :
      IsPdu r .fin (hdr ++ (part ++ fillPattern n)) part

/-- The orders in which kinds of PDU can appear: one whole SDU, or a start, any number of continuations, and,
when the transmission is complete, one end. -/
def Order (complete : Bool) (ks : List Kind) : Prop :=
  match complete with
  | true => ks = [.whole] ∨ ∃ n, ks = .start :: (List.replicate n .frag ++ [.fin])
  | false => ks = [] ∨ ∃ n, ks = .start :: List.replicate n .frag

/-- The blocks are offered to the fragmenter one after another until it says it is done. Gives the final
state and, per block used, the bits appended to it. -/
def send (f : Fragger) : List Blk → Out (Fragger × List (List Bool))
  | [] => .ok (f, [])
  | b :: bs =>
    if f.done then .ok (f, [])
    else do
      let r ← f.nextChunk b
      let q ← send r.1 bs
      .ok (q.1, r.2.1.bits.drop b.bits.length :: q.2)

/-! ## Sending -/

theorem macFrag_dec (k : Nat) (rest : List Bool) :
    MacFrag.dec.run ([false, true, false, decide (k > 0)] ++ rest) = .ok (⟨decide (k > 0)⟩, rest) := by
  obtain ⟨bs, h1, h2⟩ := c37_mac_frag ⟨decide (k > 0)⟩
  rw [macFrag_enc] at h1
  cases h1
  exact h2 rest

theorem macEnd_dec (k len : Nat) (h : len < 64) (rest : List Bool) :
    MacEndDl.dec.run ([false, true, true, decide (k > 0), false] ++ (toBits 6 len ++ [false, false]) ++ rest) =
      .ok (⟨decide (k > 0), 0, len, none, none⟩, rest) := by
  obtain ⟨bs, h1, h2⟩ := c37_mac_end_dl ⟨decide (k > 0), 0, len, none, none⟩
    ⟨by simp, h, by simp, by simp⟩
  rw [macEnd_enc _ _ h] at h1
  cases h1
  exact h2 rest

/-- What is left of an invariant after one step. -/
theorem Step.ok {f f' : Fragger} {b : Blk} {new : List Bool} (hf : f.Ok) (h : Step f b f' new) :
    f'.done = true ∨ f'.Ok := by
  obtain ⟨h1, h2, h3, h4⟩ := hf
  cases h with
  | idle => exact .inr ⟨h1, h2, h3, h4⟩
  | whole => exact .inl rfl
  | start hdr n r hw hr he hd hn hfull =>
    subst hr
    exact .inr ⟨h1, hn, by simp, h4⟩
  | frag n k hw hn =>
    have : f.left.length = f.sdu.length - f.pos := by simp [Fragger.left]
    exact .inr ⟨h1, by simp only; omega, by simp [hw], h4⟩
  | fin => exact .inl rfl

/-- What the message says about itself does not change while it is being sent. -/
def sameMsg (r r' : MacResource) : Prop :=
  ∃ n fb, r' = { r with lengthInd := n, fillBits := fb }

theorem send_done {f : Fragger} (h : f.done = true) (bs : List Blk) : send f bs = .ok (f, []) := by
  cases bs <;> simp [send, h]

/-- The induction statement of `send_spec`. -/
def Sent (r : MacResource) (f : Fragger) (bs : List Blk) : Prop :=
    ∃ (f' : Fragger) (news parts : List (List Bool)) (ks : List (Option Kind)),
      send f bs = .ok (f', news) ∧ news.length = parts.length ∧ ks.length = parts.length ∧
      f'.sdu = f.sdu ∧ f.pos ≤ f'.pos ∧ f'.pos ≤ f.sdu.length ∧
      parts.flatten = (f.sdu.drop f.pos).take (f'.pos - f.pos) ∧
      (f'.done = true → f'.pos = f.sdu.length) ∧
      (∀ (i : Nat) (n p : List Bool) (k : Option Kind), news[i]? = some n → parts[i]? = some p → ks[i]? = some k →
        (k = none ∧ n = [] ∧ p = []) ∨ ∃ k', k = some k' ∧ IsPdu r k' n p) ∧
      (f.hdrWritten = false → Order f'.done (ks.filterMap id)) ∧
      (f.hdrWritten = true → ∃ m, ks.filterMap id = List.replicate m .frag ++ (if f'.done then [Kind.fin] else []))

theorem send_spec (bs : List Blk) (f : Fragger) (r : MacResource) (hr : sameMsg r f.resource) (hf : f.Ok)
    (hb : ∀ b ∈ bs, b.Ok) : Sent r f bs := by
  induction bs generalizing f with
  | nil =>
    refine ⟨f, [], [], [], rfl, rfl, rfl, rfl, Nat.le_refl _, hf.pos_le, by simp, ?_, by simp, ?_, ?_⟩
    · simp [hf.busy]
    · simp [hf.busy, Order]
    · intro _; exact ⟨0, by simp [hf.busy]⟩
  | cons b bs ih =>
    obtain ⟨f1, new, e1, hst⟩ := nextChunk_step f b hf (hb b (by simp))
    have hsend : ∀ q, send f1 bs = .ok q → send f (b :: bs) = .ok (q.1, new :: q.2) := by
      intro q hq
      simp [send, hf.busy, e1, hq]
    have hleft : f.left = f.sdu.drop f.pos := rfl
    have hlen : f.left.length = f.sdu.length - f.pos := by simp [Fragger.left]
    have hok := hst.ok hf
    -- one step which completes the transmission
    have fin1 : ∀ (k : Kind) (p : List Bool), f1.done = true → f1.sdu = f.sdu → f1.pos = f.sdu.length → p = f.left →
        IsPdu r k new p →
        (f.hdrWritten = false → k = .whole) → (f.hdrWritten = true → k = .fin) →
        Sent r f (b :: bs) := by
      intro k p hd hs hp hpl hpdu hk0 hk1
      refine ⟨f1, [new], [p], [some k], by simpa using hsend _ (send_done hd bs), rfl, rfl, hs, ?_, ?_, ?_, fun _ => hp, ?_, ?_, ?_⟩
      · rw [hp]; exact hf.pos_le
      · rw [hp]; exact Nat.le_refl _
      · simp only [List.flatten_cons, List.flatten_nil, List.append_nil, hp, hpl]
        rw [List.take_of_length_le (by simp)]; rfl
      · intro i n p' k' h1 h2 h3
        cases i with
        | zero => simp at h1 h2 h3; subst h1 h2 h3; exact .inr ⟨k, rfl, hpdu⟩
        | succ i => simp at h1
      · intro hw; simp [hd, Order, hk0 hw]
      · intro hw; exact ⟨0, by simp [hd, hk1 hw]⟩
    -- one step which does not
    have cont : ∀ (k : Option Kind) (n : Nat) (p : List Bool), f1.Ok → sameMsg r f1.resource → f1.sdu = f.sdu →
        f1.pos = f.pos + n → p = f.left.take n →
        ((k = none ∧ new = [] ∧ p = []) ∨ ∃ k', k = some k' ∧ IsPdu r k' new p) →
        ((k = none ∧ f1.hdrWritten = f.hdrWritten) ∨
          (k = some .start ∧ f.hdrWritten = false ∧ f1.hdrWritten = true) ∨
          (k = some .frag ∧ f.hdrWritten = true ∧ f1.hdrWritten = true)) →
        Sent r f (b :: bs) := by
      intro k n p hf1 hr1 hs hp hpl hpdu hk
      obtain ⟨f', news, parts, ks, g1, g2, g3, g4, g5, g6, g7, g8, g9, g10, g11⟩ := ih f1 hr1 hf1 (fun b' h => hb b' (by simp [h]))
      refine ⟨f', new :: news, p :: parts, k :: ks, hsend _ g1, by simp [g2], by simp [g3], by rw [g4, hs], by omega, by rw [hs] at g6; exact g6, ?_, by rw [hs] at g8; exact g8, ?_, ?_, ?_⟩
      · rw [List.flatten_cons, g7, hpl, hs, hp, hleft, show f'.pos - f.pos = n + (f'.pos - (f.pos + n)) by omega,
          List.take_add, List.drop_drop]
      · intro i n' p' k' h1 h2 h3
        cases i with
        | zero => simp at h1 h2 h3; subst h1 h2 h3; exact hpdu
        | succ i => simp at h1 h2 h3; exact g9 i n' p' k' h1 h2 h3
      · intro hw
        rcases hk with ⟨hk, e⟩ | ⟨hk, _, e⟩ | ⟨hk, e, _⟩
        · subst hk; simpa using g10 (by rw [e]; exact hw)
        · subst hk
          obtain ⟨m, hm⟩ := g11 e
          simp only [List.filterMap_cons, id, hm]
          cases hd : f'.done with
          | true => right; exact ⟨m, by simp⟩
          | false => right; exact ⟨m, by simp⟩
        · rw [hw] at e; cases e
      · intro hw
        rcases hk with ⟨hk, e⟩ | ⟨hk, e, _⟩ | ⟨hk, _, e⟩
        · subst hk; simpa using g11 (by rw [e]; exact hw)
        · rw [hw] at e; cases e
        · subst hk
          obtain ⟨m, hm⟩ := g11 e
          exact ⟨m + 1, by simp [hm, List.replicate_succ]⟩
    obtain ⟨rn, rfb, hrr⟩ := hr
    cases hst with
    | idle => exact cont none 0 [] hf ⟨_, _, hrr⟩ rfl (by simp) (by simp) (.inl ⟨rfl, rfl, rfl⟩) (.inl ⟨rfl, rfl⟩)
    | whole hdr n r' hw hr' he hd h16 hfit hal =>
      refine fin1 .whole f.sdu rfl rfl rfl (by simp [Fragger.left, hf.fresh hw]) ?_ (fun _ => rfl) (by simp [hw])
      have h268 := (hb b (by simp)).slot
      have : b.remaining ≤ 268 := by simp [Blk.remaining]; omega
      refine .whole hdr f.sdu n ((hdr ++ (f.sdu ++ fillPattern n)).length / 8) ?_ (fun rest => ?_)
      · omega
      · rw [hd rest, hr', hrr]
    | start hdr n r' hw hr' he hd hn hfull =>
      rcases hok with h | hok
      · simp [hf.busy] at h
      · refine cont (some .start) n (f.sdu.take n) hok ⟨63, false, ?_⟩ rfl (by simp [hf.fresh hw]) (by simp [Fragger.left, hf.fresh hw])
          (.inr ⟨_, rfl, .start hdr _ (fun rest => ?_)⟩) (.inr (.inl ⟨rfl, hw, rfl⟩))
        · simp only [hr', hrr]
        · rw [hd rest, hr', hrr]
    | frag n k hw hn hprog hfull hlt h16 hlate =>
      rcases hok with h | hok
      · simp [hf.busy] at h
      · exact cont (some .frag) n (f.left.take n) hok ⟨_, _, hrr⟩ rfl rfl rfl
          (.inr ⟨_, rfl, .frag _ _ _ (macFrag_dec k)⟩) (.inr (.inr ⟨rfl, hw, hw⟩))
    | fin k len hw hl1 hl2 hfit =>
      refine fin1 .fin f.left rfl rfl rfl rfl ?_ (by simp [hw]) (fun _ => rfl)
      exact .fin _ _ _ len (macEnd_dec k len hl2) (by simp [length_fillPattern]; omega)

/-- **C19, nothing lost, duplicated or reordered.** Whatever the SDU and whatever blocks the fragmenter is
offered, it does not abort; each block it uses gets one PDU or nothing; the PDUs come in a legal order; the
SDU parts they carry, one after another, are a prefix of the SDU, and the whole SDU when the fragmenter says
it is done. -/
theorem c19_reassembly (r : MacResource) (hr : r.Sendable) (sdu : List Bool) (bs : List Blk) (hb : ∀ b ∈ bs, b.Ok) :
    ∃ (f' : Fragger) (news parts : List (List Bool)) (ks : List (Option Kind)),
      send (Fragger.new r sdu) bs = .ok (f', news) ∧ news.length = parts.length ∧ ks.length = parts.length ∧
      parts.flatten <+: sdu ∧ (f'.done = true → parts.flatten = sdu) ∧
      (∀ (i : Nat) (n p : List Bool) (k : Option Kind), news[i]? = some n → parts[i]? = some p → ks[i]? = some k →
        (k = none ∧ n = [] ∧ p = []) ∨ ∃ k', k = some k' ∧ IsPdu r k' n p) ∧
      Order f'.done (ks.filterMap id) := by
  obtain ⟨f', news, parts, ks, g1, g2, g3, g4, g5, g6, g7, g8, g9, g10, _⟩ :=
    send_spec bs (Fragger.new r sdu) r ⟨r.lengthInd, r.fillBits, rfl⟩ ⟨hr, by simp [Fragger.new], by simp [Fragger.new], rfl⟩ hb
  refine ⟨f', news, parts, ks, g1, g2, g3, ?_, ?_, g9, g10 rfl⟩
  · rw [g7]; simp [Fragger.new, List.take_prefix]
  · intro hd
    rw [g7, g8 hd]; simp [Fragger.new]

/-- **C19, room.** One call of the fragmenter never overfills a block, only appends to it, and leaves it
written up to a byte boundary or to its end. -/
theorem c19_block (f : Fragger) (b : Blk) (hf : f.Ok) (hb : b.Ok) :
    ∃ f' b', f.nextChunk b = .ok (f', b', f'.done) ∧ b.bits <+: b'.bits ∧ b'.cap = b.cap ∧ b'.Ok := by
  obtain ⟨f', new, e, hst⟩ := nextChunk_step f b hf hb
  have hb' := hb
  obtain ⟨b1, b2, b3⟩ := hb
  have hrem : b.remaining = b.cap - b.bits.length := rfl
  refine ⟨f', _, e, List.prefix_append _ _, rfl, ?_, b2, ?_⟩ <;> simp only [List.length_append] <;>
    cases hst with
    | idle => simp; omega
    | whole hdr n r hw hr he hd h16 hfit hal => omega
    | start hdr n r hw hr he hd hn hfull => simp only [List.length_append, List.length_take]; omega
    | frag n k hw hn hprog hfull hlt h16 hlate =>
      simp only [List.length_append, List.length_take, length_fillPattern, List.length_cons, List.length_nil]; omega
    | fin k len hw hlen hl hfit =>
      simp only [List.length_append, length_toBits, length_fillPattern, List.length_cons, List.length_nil]; omega

/-! ## The process ends -/

theorem send_ends (bs : List Blk) (f : Fragger) (n : Nat) (hn : f.resource.headerLen = .ok n) (hf : f.Ok)
    (hb : ∀ b ∈ bs, b.Ok ∧ 32 ≤ b.remaining ∧ n ≤ b.remaining)
    (hlong : (f.sdu.length - f.pos) + 1 + (if f.hdrWritten then 0 else 1) ≤ bs.length) :
    ∃ f' news, send f bs = .ok (f', news) ∧ f'.done = true := by
  induction bs generalizing f with
  | nil => simp at hlong
  | cons b bs ih =>
    obtain ⟨hbo, h32, hnb⟩ := hb b (by simp)
    obtain ⟨f1, new, e1, hst⟩ := nextChunk_step f b hf hbo
    have hsend : ∀ q, send f1 bs = .ok q → send f (b :: bs) = .ok (q.1, new :: q.2) := by
      intro q hq
      simp [send, hf.busy, e1, hq]
    have hok := hst.ok hf
    have hlen : f.left.length = f.sdu.length - f.pos := by simp [Fragger.left]
    simp only [List.length_cons] at hlong
    cases hst with
    | idle h0 h1 =>
      exfalso
      cases hw : f.hdrWritten with
      | false =>
        obtain ⟨m, hm, hc⟩ := h0 hw
        rw [hn] at hm; cases hm; omega
      | true => have := h1 hw; omega
    | whole => exact ⟨_, _, hsend _ (send_done rfl bs), rfl⟩
    | fin => exact ⟨_, _, hsend _ (send_done rfl bs), rfl⟩
    | start hdr m r' hw hr' he hd hm hfull =>
      rcases hok with h | hok
      · simp [hf.busy] at h
      · have hpos := hf.fresh hw
        simp only [hw, Bool.false_eq_true, if_false] at hlong
        obtain ⟨f', news, g1, g2⟩ := ih _ (by simp only [hr']; exact hn) hok (fun b' h => hb b' (by simp [h]))
          (by simp only [if_true]; omega)
        exact ⟨f', _, hsend _ g1, g2⟩
    | frag m k hw hm hprog hfull hlt h16 hlate =>
      rcases hok with h | hok
      · simp [hf.busy] at h
      · simp only [hw, if_true] at hlong
        obtain ⟨f', news, g1, g2⟩ := ih _ (by exact hn) hok (fun b' h => hb b' (by simp [h]))
          (by simp only [hw, if_true]; omega)
        exact ⟨f', _, hsend _ g1, g2⟩

/-- **C19, the process ends.** If every block offered has room for the header and at least 32 bits, the whole
SDU has been sent after at most `SDU length + 2` blocks. -/
theorem c19_ends (r : MacResource) (hr : r.Sendable) (sdu : List Bool) (n : Nat) (hn : r.headerLen = .ok n)
    (bs : List Blk) (hb : ∀ b ∈ bs, b.Ok ∧ 32 ≤ b.remaining ∧ n ≤ b.remaining) (hlong : sdu.length + 2 ≤ bs.length) :
    ∃ f' news, send (Fragger.new r sdu) bs = .ok (f', news) ∧ f'.done = true :=
  send_ends bs (Fragger.new r sdu) n hn ⟨hr, by simp [Fragger.new], by simp [Fragger.new], rfl⟩ hb
    (by simp [Fragger.new]; omega)

/-! ## Receiving -/

theorem fillCount_append (l : List Bool) (n : Nat) (h : n > 0) : fillCount (l ++ fillPattern n) = n := by
  obtain ⟨m, rfl⟩ : ∃ m, n = m + 1 := ⟨n - 1, by omega⟩
  have e : (l ++ fillPattern (m + 1)).reverse = List.replicate m false ++ (true :: l.reverse) := by
    simp [fillPattern]
  have e2 : ∀ (m : Nat) (r : List Bool), (List.replicate m false ++ (true :: r)).dropWhile (fun b => !b) = true :: r := by
    intro m r
    induction m with
    | zero => simp
    | succ m ih => simpa [List.replicate_succ, List.dropWhile] using ih
  simp only [fillCount, e, e2]
  simp [fillPattern]

theorem cutPdu_part (hdr part after : List Bool) (n : Nat) :
    cutPdu (hdr ++ (part ++ fillPattern n) ++ after) hdr.length (hdr ++ (part ++ fillPattern n)).length (decide (n > 0)) =
      .ok part := by
  have h1 : (hdr ++ (part ++ fillPattern n) ++ after).take (hdr ++ (part ++ fillPattern n)).length =
      hdr ++ (part ++ fillPattern n) := List.take_left
  have h2 : (hdr ++ (part ++ fillPattern n)).drop hdr.length = part ++ fillPattern n := List.drop_left
  have h0 : ¬ ((hdr ++ (part ++ fillPattern n)).length < hdr.length ∨
      (hdr ++ (part ++ fillPattern n) ++ after).length < (hdr ++ (part ++ fillPattern n)).length) := by
    simp only [List.length_append]; omega
  unfold cutPdu
  rw [if_neg h0]
  simp only [h1, h2]
  by_cases hn : n > 0
  · simp [hn, fillCount_append, length_fillPattern]
  · have : n = 0 := by omega
    subst this
    simp [fillPattern]

theorem cutPdu_part' (hdr part after bs : List Bool) (n h len : Nat) (fb : Bool)
    (e : bs = hdr ++ (part ++ fillPattern n) ++ after) (hh : h = hdr.length)
    (hl : len = (hdr ++ (part ++ fillPattern n)).length) (hf : fb = decide (n > 0)) :
    cutPdu bs h len fb = .ok part := by
  subst e hh hl hf; exact cutPdu_part hdr part after n

/-- The address of the message as the receiver sees it. -/
def MacResource.heard (r : MacResource) (len : Nat) (fb : Bool) : MacResource :=
  ({ r with lengthInd := len, fillBits := fb } : MacResource).onAir

/-- **C19, at the receiver.** Each PDU the fragmenter appends is taken by the receiver, whatever follows it in
the block, as the part of the SDU the fragmenter took: a first part, a next part, a last part, or a whole SDU.
The exception, a missing part of the property, is a whole SDU which fills the block up to a number of bits which
is not a multiple of 8: see `c19_last_bits_lost`. -/
theorem c19_received_partial (f : Fragger) (b : Blk) (hf : f.Ok) (hb : b.Ok) (ha : f.resource.addr.isSome = true)
    (hc : f.resource.encryptionMode = 0) (f' : Fragger) (b' : Blk) (d : Bool) (h : f.nextChunk b = .ok (f', b', d))
    (after : List Bool) (hafter : after.length = b'.remaining) :
    ∃ new part, b'.bits = b.bits ++ new ∧ part = (f.sdu.drop f.pos).take (f'.pos - f.pos) ∧
      ((new = [] ∧ part = []) ∨
       (f.hdrWritten = false ∧ d = false ∧
         rxPdu (new ++ after) = .ok (.first (f.resource.heard 63 false) part)) ∨
       (f.hdrWritten = false ∧ d = true ∧ part = f.sdu ∧ (new.length % 8 = 0 → f.sdu ≠ [] → ∃ len fb,
         rxPdu (new ++ after) = .ok (.whole (f.resource.heard len fb) f.sdu))) ∨
       (f.hdrWritten = true ∧ d = false ∧ rxPdu (new ++ after) = .ok (.next part)) ∨
       (f.hdrWritten = true ∧ d = true ∧ rxPdu (new ++ after) = .ok (.last part))) := by
  obtain ⟨f1, new, e, hst⟩ := nextChunk_step f b hf hb
  rw [e] at h
  simp only [Out.ok.injEq, Prod.mk.injEq] at h
  obtain ⟨rfl, rfl, rfl⟩ := h
  have hrem : b.remaining = b.cap - b.bits.length := rfl
  have hbf := hb.fits
  have hleft : f.left = f.sdu.drop f.pos := rfl
  have hlen : f.left.length = f.sdu.length - f.pos := by simp [Fragger.left]
  have hafter' : after.length = b.remaining - new.length := by
    rw [hafter]; simp only [Blk.remaining, List.length_append]; omega
  have hb268 := hb.slot
  refine ⟨new, _, rfl, rfl, ?_⟩
  cases hst with
  | idle => left; simp
  | whole hdr n r hw hr he hd h16 hfit hal hreq hhl =>
    clear hreq hhl
    right; right; left
    have hpos := hf.fresh hw
    refine ⟨hw, rfl, by simp [hpos], fun h8 hne => ?_⟩
    obtain ⟨q, hq⟩ := macResource_enc_shape he
    generalize hL : (hdr ++ (f.sdu ++ fillPattern n)).length = L at *
    have hrun : MacResource.dec.run (hdr ++ (f.sdu ++ fillPattern n) ++ after) = .ok (r.onAir, f.sdu ++ fillPattern n ++ after) := by
      have := hd (f.sdu ++ fillPattern n ++ after)
      simpa [List.append_assoc] using this
    refine ⟨L / 8, decide (n > 0), ?_⟩
    have hrx : rxPdu (hdr ++ (f.sdu ++ fillPattern n) ++ after) = rxResource (hdr ++ (f.sdu ++ fillPattern n) ++ after) := by
      rw [hq]; rfl
    have hfl : r.onAir.lengthInd = L / 8 := by rw [hr]; rfl
    have hff : r.onAir.fillBits = decide (n > 0) := by rw [hr]; rfl
    have hfa : r.onAir.addr.isNone = false := by
      rw [hr]; simp only [MacResource.onAir, Option.isNone_map]
      cases hx : f.resource.addr <;> simp_all
    have hfe : ¬ r.onAir.encryptionMode > 0 := by rw [hr]; simp [MacResource.onAir, hc]
    have htl : (hdr ++ (f.sdu ++ fillPattern n) ++ after).length = L + after.length := by
      rw [List.length_append, hL]
    have hdl : (f.sdu ++ fillPattern n ++ after).length + hdr.length = L + after.length := by
      rw [← hL]; simp only [List.length_append]; omega
    have hge : hdr.length ≤ L := by rw [← hL]; simp
    have hcut : cutPdu (hdr ++ (f.sdu ++ fillPattern n) ++ after)
        ((hdr ++ (f.sdu ++ fillPattern n) ++ after).length - (f.sdu ++ fillPattern n ++ after).length)
        (min (L / 8 * 8) (hdr ++ (f.sdu ++ fillPattern n) ++ after).length) (decide (n > 0)) = .ok f.sdu :=
      cutPdu_part' hdr f.sdu after _ n _ _ _ rfl (by omega) (by omega) rfl
    rw [hrx]
    simp only [rxResource, hrun, hfl, hff, hfa, hfe]
    rw [if_pos (by omega : 1 ≤ L / 8 ∧ L / 8 < 58)]
    simp only [Out.bind_ok, hcut]
    rw [if_neg (by simp; omega), if_neg (by omega), if_neg (by simpa using hne)]
    rw [hr]; rfl
  | start hdr n r hw hr he hd hn hfull =>
    right; left
    have hpos := hf.fresh hw
    refine ⟨hw, hf.busy, ?_⟩
    obtain ⟨q, hq⟩ := macResource_enc_shape he
    have htk : (f.sdu.take n).length = n := by simp; omega
    have ha0 : after = [] := by
      have : after.length = 0 := by rw [hafter']; simp only [List.length_append]; omega
      exact List.eq_nil_of_length_eq_zero this
    subst ha0
    have hrun : MacResource.dec.run (hdr ++ f.sdu.take n ++ []) = .ok (r.onAir, f.sdu.take n) := by
      rw [List.append_nil]; exact hd _
    have hrx : rxPdu (hdr ++ f.sdu.take n ++ []) = rxResource (hdr ++ f.sdu.take n ++ []) := by
      rw [hq]; rfl
    have hfl : r.onAir.lengthInd = 63 := by rw [hr]; rfl
    have hff : r.onAir.fillBits = false := by rw [hr]; rfl
    have hfa : r.onAir.addr.isNone = false := by
      rw [hr]; simp only [MacResource.onAir, Option.isNone_map]
      cases hx : f.resource.addr <;> simp_all
    have hfe : ¬ r.onAir.encryptionMode > 0 := by rw [hr]; simp [MacResource.onAir, hc]
    have hcut : cutPdu (hdr ++ f.sdu.take n ++ []) ((hdr ++ f.sdu.take n ++ []).length - (f.sdu.take n).length)
        (hdr ++ f.sdu.take n ++ []).length false = .ok (f.sdu.take n) :=
      cutPdu_part' hdr (f.sdu.take n) [] _ 0 _ _ _ (by simp [fillPattern]) (by simp only [List.length_append, List.length_nil]; omega)
        (by simp [fillPattern]) rfl
    rw [hrx]
    simp only [rxResource, hrun, hfl, hff, hfa, hfe]
    rw [if_neg (by omega), if_pos (.inr trivial)]
    simp only [Out.bind_ok, Nat.min_self, hcut]
    rw [if_neg (by simp), if_pos trivial]
    rw [hr]; simp [hpos]; rfl
  | frag n k hw hn hprog hfull hlt h16 hlate =>
    right; right; right; left
    have ha0 : after = [] := by
      have : after.length = 0 := by
        rw [hafter']; simp only [List.length_append, List.length_take, length_fillPattern, List.length_cons, List.length_nil]; omega
      exact List.eq_nil_of_length_eq_zero this
    subst ha0
    refine ⟨hw, hf.busy, ?_⟩
    simp only [show f.pos + n - f.pos = n by omega, ← hleft]
    have hrun := macFrag_dec k (f.left.take n ++ fillPattern k)
    have hrx : rxPdu ([false, true, false, decide (k > 0)] ++ (f.left.take n ++ fillPattern k) ++ []) =
        rxFrag ([false, true, false, decide (k > 0)] ++ (f.left.take n ++ fillPattern k)) := by
      rw [List.append_nil]; rfl
    rw [hrx]
    simp only [rxFrag, hrun]
    rw [cutPdu_part' [false, true, false, decide (k > 0)] (f.left.take n) [] _ k _ _ _ (List.append_nil _).symm ?_ rfl rfl]
    · rfl
    · simp only [List.length_append, List.length_cons, List.length_nil]; omega
  | fin k len hw hlen' hl hfit =>
    right; right; right; right
    refine ⟨hw, rfl, ?_⟩
    have hpart : (f.sdu.drop f.pos).take (f.sdu.length - f.pos) = f.left := List.take_of_length_le (by simp)
    simp only [hpart]
    have hrun := macEnd_dec k len hl (f.left ++ fillPattern k ++ after)
    rw [← List.append_assoc] at hrun
    have hrx : rxPdu ([false, true, true, decide (k > 0), false] ++ (toBits 6 len ++ [false, false]) ++ (f.left ++ fillPattern k) ++ after) =
        rxEnd ([false, true, true, decide (k > 0), false] ++ (toBits 6 len ++ [false, false]) ++ (f.left ++ fillPattern k) ++ after) := rfl
    rw [hrx]
    simp only [rxEnd, hrun]
    rw [if_neg (by omega)]
    rw [cutPdu_part' ([false, true, true, decide (k > 0), false] ++ (toBits 6 len ++ [false, false])) f.left after _ k _ _ _ rfl ?_ ?_ rfl]
    · rfl
    · simp only [List.length_append, List.length_cons, List.length_nil, length_toBits]; omega
    · simp only [List.length_append, List.length_cons, List.length_nil, length_toBits, length_fillPattern]; omega

/-! ## Finding -/

/-- A resource addressed to one station. -/
def sampleRes : MacResource := ⟨false, 0, 0, false, 0, some ⟨1234567, .issi, false⟩, none, none, none, none, none⟩

example : sampleRes.Sendable ∧ sampleRes.headerLen = .ok 43 := by
  refine ⟨⟨by decide, by decide, by decide, by decide, ?_, by simp [sampleRes], by simp [sampleRes], by simp [sampleRes]⟩, by decide⟩
  simp [MacResource.Addressed, sampleRes]

/-- What a receiver of `bs` as the content of a whole block is given: the SDU. -/
def heardSdu (o : Out (Fragger × Blk × Bool)) : Option (List Bool) :=
  match o with
  | .ok (_, b, _) => match rxPdu b.bits with
    | .ok (.whole _ sdu) => some sdu
    | _ => none
  | _ => none

/-- **Finding.** An SDU which, with its header, fills a 268-bit block completely is announced with 33 octets, that is
264 bits: the receiver drops the last four bits of the SDU. When three fill bits are needed to fill the block,
the receiver takes the end of the SDU itself for fill bits: here it hands up 1 of 222 bits. -/
theorem c19_last_bits_lost :
    heardSdu ((Fragger.new sampleRes (List.replicate 225 true)).nextChunk ⟨[], 268⟩) = some (List.replicate 221 true) ∧
    heardSdu ((Fragger.new sampleRes (true :: true :: List.replicate 220 false)).nextChunk ⟨[], 268⟩) = some [true] := by
  decide +kernel

/-! ## Examples -/

/-- 400 bits need three blocks of 268, 124 and 268 bits: start, continuation, end. -/
example : (match send (Fragger.new sampleRes (List.replicate 400 true)) [⟨[], 268⟩, ⟨[], 20⟩, ⟨[], 124⟩, ⟨[], 268⟩] with
    | .ok (f, news) => (f.done, f.pos, news.map List.length)
    | _ => (false, 0, [])) = (true, 400, [268, 20, 124, 56]) := by decide +kernel

example : (⟨[], 268⟩ : Blk).Ok := ⟨by simp, by simp, by simp⟩

/-- The bits of an SDU come back at the receiver. -/
example : (match (Fragger.new sampleRes [true, false, true, true]).nextChunk ⟨[], 124⟩ with
    | .ok (_, b, _) => rxPdu (b.bits ++ List.replicate b.remaining true)
    | _ => .panic) = .ok (.whole (sampleRes.heard 6 true) [true, false, true, true]) := by decide +kernel

end Verif.Umac
