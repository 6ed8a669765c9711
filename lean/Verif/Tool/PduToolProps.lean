import Verif.Tool.PduTool
import Verif.Umac.MacPdusProps
/-!
# What the PDU tool shows (C100)
-/
namespace Verif.Tool
open Verif.Bits Verif.Codec Verif.Umac

/-! ## Specification -/

/-- The tool, called with a direction, a channel and a string of bits. -/
def tool (down : Bool) (ch : Chan) (bits : List Bool) : Out (List Shown) := if down then parseDl ch bits else parseUl ch bits

/-- `hb` are the bits a station writes, in this direction and on this channel, for a header `h` with this length (if it has
one) and this fill bit flag. -/
inductive Wire : Bool → Chan → Hdr → Option Nat → Bool → List Bool → Prop
  | access (x : MacAccess) (hb : List Bool) : x.InRange → x.enc = .ok hb → Wire false .schHu (.access x) x.lengthInd x.fillBits hb
  | endHu (x : MacEndHu) (hb : List Bool) : (∃ v, v < 16 ∧ (x.lengthInd = some v ∧ x.reservation = none ∨ x.lengthInd = none ∧ x.reservation = some v)) →
      x.enc = .ok hb → Wire false .schHu (.endHu x) x.lengthInd x.fillBits hb
  | data (ch : Chan) (x : MacData) (hb : List Bool) : ch = .schF ∨ ch = .stch → x.InRange → x.enc = .ok hb →
      Wire false ch (.data x) x.lengthInd x.fillBits hb
  | fragUl (ch : Chan) (x : MacFrag) (hb : List Bool) : ch = .schF ∨ ch = .stch → x.enc = .ok hb → Wire false ch (.fragUl x) none x.fillBits hb
  | endUl (ch : Chan) (fill : Bool) (v : Nat) (hb : List Bool) : ch = .schF ∨ ch = .stch → 1 ≤ v ∧ v ≤ 45 →
      MacEndUl.enc ⟨fill, some v, none⟩ = .ok hb → Wire false ch (.endUl ⟨fill, some v, none⟩) (some v) fill hb
  | uBlck (x : MacUBlck) (hb : List Bool) : x.eventLabel < 1024 → x.reservation < 16 → x.enc = .ok hb →
      Wire false .schF (.uBlck x) none x.fillBits hb
  | uSignal (x : MacUSignal) (hb : List Bool) : x.enc = .ok hb → Wire false .stch (.uSignal x) none false hb
  | resource (ch : Chan) (x : MacResource) (hb : List Bool) : ch = .schF ∨ ch = .schHd → x.InRange → x.enc = .ok hb →
      Wire true ch (.resource x.onAir) (some x.lengthInd) x.fillBits hb
  | null (ch : Chan) (n : Nat) (hb : List Bool) : ch = .schF ∨ ch = .schHd → 0 < n ∧ n < 64 →
      MacResource.enc { MacResource.null with lengthInd := n } = .ok hb →
      Wire true ch (.resource { MacResource.null with lengthInd := n }) (some n) false hb
  | endDl (ch : Chan) (x : MacEndDl) (hb : List Bool) : ch = .schF ∨ ch = .schHd → x.InRange → x.enc = .ok hb →
      Wire true ch (.endDl x) (some x.lengthInd) x.fillBits hb
  | fragDl (ch : Chan) (x : MacFrag) (hb : List Bool) : ch = .schF ∨ ch = .schHd → x.enc = .ok hb → Wire true ch (.fragDl x) none x.fillBits hb
  | dBlck (ch : Chan) (x : MacDBlck) (hb : List Bool) : ch = .schF ∨ ch = .schHd → x.encryptionMode < 4 → x.eventLabel < 1024 →
      (∀ v, x.slotGrant = some v → v.InRange) → x.enc = .ok hb → Wire true ch (.dBlck x) none x.fillBits hb
  | sysinfo (ch : Chan) (x : MacSysinfo) (hb : List Bool) : ch = .schF ∨ ch = .schHd → x.InRange → x.enc = .ok hb →
      Wire true ch (.sysinfo x) none false hb
  | accessDefine (ch : Chan) (x : AccessDefine) (hb : List Bool) : ch = .schF ∨ ch = .schHd → x.InRange → x.enc = .ok hb →
      Wire true ch (.accessDefine x) none false hb
  | sync (x : MacSync) (hb : List Bool) : x.systemCode < 16 → x.colourCode < 64 → 1 ≤ x.t ∧ x.t ≤ 4 → x.f < 32 → x.m < 64 →
      x.sharingMode < 4 → x.tsReserved < 8 → x.enc = .ok hb → Wire true .bsch (.sync x) none false hb

/-! ## One PDU -/

theorem read_start (w : Win) (n : Nat) : (w.read n).start = w.start := by unfold Win.read; split <;> rfl

theorem header_start {α : Type} {w : Win} {p : Rd α} {r : Option α × Win} (h : w.header p = .ok r) : r.2.start = w.start := by
  unfold Win.header at h
  split at h <;> cases h <;> rfl

theorem showSdu_start (h : Hdr) (w : Win) (l : Option Nat) (f : Bool) : (showSdu h w l f).2.start = w.start := by
  unfold showSdu
  split
  · rfl
  · simp only
    split
    · exact read_start _ _
    · rfl

theorem parse_start {α : Type} {w : Win} {p : Rd α} {f : α → Win → Shown × Win} (hf : ∀ a w, (f a w).2.start = w.start)
    {r : Option Shown × Win} (h : parse w p f = .ok r) : r.2.start = w.start := by
  unfold parse at h
  split at h <;> cases h
  · rename_i e
    rw [hf]; exact header_start e
  · rename_i e
    exact header_start (p := p) e

theorem plain_start {α : Type} (c : α → Hdr) (a : α) (w : Win) : (plain c a w).2.start = w.start := rfl

theorem turn_start {w : Win} {x : Out (Option Shown × Win)} (hx : ∀ r, x = .ok r → r.2.start = w.start) {s : Option Shown} {w' : Win}
    (h : turn x = .ok (some (s, w'))) : w'.start = w.start := by
  unfold turn at h
  split at h <;> cases h
  exact hx _ rfl

theorem turnUl_start {ch : Chan} {w : Win} {s : Option Shown} {w' : Win} (h : turnUl ch w = .ok (some (s, w'))) : w'.start = w.start := by
  unfold turnUl at h
  repeat' split at h
  all_goals first
    | (cases h; done)
    | exact turn_start (fun r hr => parse_start (fun a w => showSdu_start _ _ _ _) hr) h
    | exact turn_start (fun r hr => parse_start (fun a w => plain_start _ _ _) hr) h

theorem turnDl_start {w : Win} {s : Option Shown} {w' : Win} (h : turnDl w = .ok (some (s, w'))) : w'.start = w.start := by
  have hb : ∀ r, parseBroadcast w = .ok r → r.2.start = w.start := by
    intro r hr
    unfold parseBroadcast at hr
    split at hr
    · exact parse_start (fun a w => plain_start _ _ _) hr
    · exact parse_start (fun a w => plain_start _ _ _) hr
    · cases hr; rfl
  unfold turnDl at h
  repeat' split at h
  all_goals first
    | (cases h; done)
    | exact turn_start hb h
    | exact turn_start (fun r hr => parse_start (fun a w => showSdu_start _ _ _ _) hr) h
    | exact turn_start (fun r hr => parse_start (fun a w => plain_start _ _ _) hr) h

/-- The first turn of the loop is the last one. -/
theorem rounds_one {f : Win → Out Turn} {w : Win} (hf : ∀ s w', f w = .ok (some (s, w')) → w'.start = w.start) (n : Nat) :
    rounds f (n + 1) w = (f w >>= fun t => .ok (match t with | none => [] | some (s, _) => s.toList)) := by
  unfold rounds
  cases h : f w with
  | err => rfl
  | panic => rfl
  | ok t =>
    cases t with
    | none => rfl
    | some r =>
      obtain ⟨s, w'⟩ := r
      simp only [Out.bind_ok, goesOn, hf s w' h, bne_self_eq_false, Bool.false_and]
      rfl

theorem parseUl_eq (ch : Chan) (bits : List Bool) :
    parseUl ch bits = (turnUl ch (Win.of bits) >>= fun t => .ok (match t with | none => [] | some (s, _) => s.toList)) :=
  rounds_one (fun _ _ => turnUl_start) _

theorem rounds_dl (bits : List Bool) :
    rounds turnDl (bits.length + 1) (Win.of bits) =
      (turnDl (Win.of bits) >>= fun t => .ok (match t with | none => [] | some (s, _) => s.toList)) :=
  rounds_one (fun _ _ => turnDl_start) _

/-- A header at the beginning of the bits. -/
theorem parse_ok {α : Type} {p : Rd α} {f : α → Win → Shown × Win} {hb rest : List Bool} {a : α} (h : p.run (hb ++ rest) = .ok (a, rest)) :
    parse (Win.of (hb ++ rest)) p f = .ok (some (f a ⟨hb ++ rest, 0, hb.length⟩).1, (f a ⟨hb ++ rest, 0, hb.length⟩).2) := by
  have : (Win.of (hb ++ rest)).header p = .ok (some a, ⟨hb ++ rest, 0, hb.length⟩) := by
    simp only [Win.header, Win.of, List.drop_zero, h, List.length_append]
    rw [show hb.length + rest.length - rest.length = hb.length by omega]
  simp only [parse, this]

theorem peek_three (a b c : Bool) (r : List Bool) : (Win.of (a :: b :: c :: r)).peek 3 = some [a, b, c] := by
  simp [Win.peek, Win.peekStart, Win.of]

/-! ## The first bits of a header -/

macro "heads" d:ident : tactic => `(tactic| (
  intro h
  rename_i B _ _
  rcases B with _ | ⟨a, _ | ⟨b, _ | ⟨c, r⟩⟩⟩
  all_goals (try cases a)
  all_goals (try cases b)
  all_goals (try cases c)
  all_goals simp [$d:ident, Rd.bits, Rd.flag, ofBits] at h
  all_goals simp))

theorem access_head {B r : List Bool} {x : MacAccess} : MacAccess.dec.run B = .ok (x, r) → ∃ b c q, B = false :: b :: c :: q := by
  heads MacAccess.dec
theorem endHu_head {B r : List Bool} {x : MacEndHu} : MacEndHu.dec.run B = .ok (x, r) → ∃ b c q, B = true :: b :: c :: q := by
  heads MacEndHu.dec
theorem data_head {B r : List Bool} {x : MacData} : MacData.dec.run B = .ok (x, r) → ∃ c q, B = false :: false :: c :: q := by
  heads MacData.dec
theorem frag_head {B r : List Bool} {x : MacFrag} : MacFrag.dec.run B = .ok (x, r) → ∃ q, B = false :: true :: false :: q := by
  heads MacFrag.dec
theorem endUl_head {B r : List Bool} {x : MacEndUl} : MacEndUl.dec.run B = .ok (x, r) → ∃ q, B = false :: true :: true :: q := by
  heads MacEndUl.dec
theorem uBlck_head {B r : List Bool} {x : MacUBlck} : MacUBlck.dec.run B = .ok (x, r) → ∃ q, B = true :: true :: false :: q := by
  heads MacUBlck.dec
theorem uSignal_head {B r : List Bool} {x : MacUSignal} : MacUSignal.dec.run B = .ok (x, r) → ∃ c q, B = true :: true :: c :: q := by
  heads MacUSignal.dec
theorem resource_head {B r : List Bool} {x : MacResource} : MacResource.dec.run B = .ok (x, r) → ∃ c q, B = false :: false :: c :: q := by
  heads MacResource.dec
theorem endDl_head {B r : List Bool} {x : MacEndDl} : MacEndDl.dec.run B = .ok (x, r) → ∃ q, B = false :: true :: true :: q := by
  heads MacEndDl.dec
theorem dBlck_head {B r : List Bool} {x : MacDBlck} : MacDBlck.dec.run B = .ok (x, r) → ∃ q, B = true :: true :: false :: q := by
  heads MacDBlck.dec
theorem sysinfo_head {x : MacSysinfo} {hb : List Bool} (h : x.enc = .ok hb) : ∃ q, hb = true :: false :: false :: false :: q := by
  unfold MacSysinfo.enc at h
  simp only [cat, Out.bind_eq_ok, wBits] at h
  obtain ⟨a, h1, b, ⟨c, h2, d, -, h3⟩, h4⟩ := h
  rw [if_pos (by decide)] at h1 h2
  cases h1; cases h2; cases h3; cases h4
  exact ⟨d, by simp [toBits]; decide⟩

theorem accessDefine_head {B r : List Bool} {x : AccessDefine} (h : AccessDefine.dec.run B = .ok (x, r)) :
    ∃ q, B = true :: false :: false :: true :: q := by
  rcases B with _ | ⟨a, _ | ⟨b, _ | ⟨c, _ | ⟨d, r⟩⟩⟩⟩
  all_goals (try cases a)
  all_goals (try cases b)
  all_goals (try cases c)
  all_goals (try cases d)
  all_goals simp [AccessDefine.dec, Rd.bits, Rd.flag, ofBits] at h
  all_goals simp

/-- What a written header gives when it is read. -/
theorem read_of {α : Type} {w : α → Out (List Bool)} {p : Rd α} {x y : α} {hb : List Bool} (h : ReadsAs w p x y) (he : w x = .ok hb)
    (rest : List Bool) : p.run (hb ++ rest) = .ok (y, rest) := by
  obtain ⟨bs, e, h⟩ := h
  rw [he] at e
  cases e
  exact h rest

/-! ## A written header is shown -/

theorem ul_shown {ch : Chan} {B : List Bool} {s : Shown} {w : Win} (h : turnUl ch (Win.of B) = .ok (some (some s, w))) :
    parseUl ch B = .ok [s] := by
  rw [parseUl_eq, h]; rfl

theorem dl_shown {ch : Chan} (hc : ch = .schF ∨ ch = .schHd) {B : List Bool} {s : Shown} {w : Win}
    (h : turnDl (Win.of B) = .ok (some (some s, w))) : parseDl ch B = .ok [s] := by
  rcases hc with rfl | rfl <;> simp only [parseDl] <;> rw [rounds_dl, h] <;> rfl

/-- Whatever follows a written header, exactly one PDU is shown: the header, then what `showSdu` makes of the rest. -/
theorem tool_wire {down : Bool} {ch : Chan} {h : Hdr} {l : Option Nat} {f : Bool} {hb : List Bool} (hw : Wire down ch h l f hb)
    (rest : List Bool) : tool down ch (hb ++ rest) = .ok [(showSdu h ⟨hb ++ rest, 0, hb.length⟩ l f).1] := by
  cases hw with
  | access x _ hr he =>
    have q := read_of (c37_mac_access x hr) he rest
    obtain ⟨b, c, r, e⟩ := access_head q
    refine ul_shown (w := (showSdu (.access x) ⟨hb ++ rest, 0, hb.length⟩ x.lengthInd x.fillBits).2) ?_
    simp only [turnUl, e, peek_three]
    rw [← e]
    simp only [parseAccess, parse_ok q, turn, Bool.false_eq_true, if_false]
  | endHu x _ hr he =>
    have q : MacEndHu.dec.run (hb ++ rest) = .ok (x, rest) := by
      obtain ⟨fl, a, b⟩ := x
      obtain ⟨v, hv, ⟨rfl, rfl⟩ | ⟨rfl, rfl⟩⟩ := hr
      · exact read_of (c37_mac_end_hu fl v hv).1 he rest
      · exact read_of (c37_mac_end_hu fl v hv).2 he rest
    obtain ⟨b, c, r, e⟩ := endHu_head q
    refine ul_shown (w := (showSdu (.endHu x) ⟨hb ++ rest, 0, hb.length⟩ x.lengthInd x.fillBits).2) ?_
    simp only [turnUl, e, peek_three]
    rw [← e]
    simp only [parseEndHu, parse_ok q, turn, if_true]
  | data _ x _ hc hr he =>
    have q := read_of (c37_mac_data x hr) he rest
    obtain ⟨c, r, e⟩ := data_head q
    refine ul_shown (w := (showSdu (.data x) ⟨hb ++ rest, 0, hb.length⟩ x.lengthInd x.fillBits).2) ?_
    rcases hc with rfl | rfl <;> simp only [turnUl, e, peek_three] <;> rw [← e] <;> simp only [parseData, parse_ok q, turn]
  | fragUl _ x _ hc he =>
    have q := read_of (c37_mac_frag x) he rest
    obtain ⟨r, e⟩ := frag_head q
    refine ul_shown (w := ⟨hb ++ rest, 0, hb.length⟩) ?_
    rcases hc with rfl | rfl <;> simp only [turnUl, e, peek_three] <;> rw [← e] <;>
      simp only [parse_ok q, turn, plain, Bool.false_eq_true, if_false] <;> rfl
  | endUl _ _ v _ hc hr he =>
    have q := read_of (c37_mac_end_ul_partial f v hr) he rest
    obtain ⟨r, e⟩ := endUl_head q
    refine ul_shown (w := (showSdu (.endUl ⟨f, some v, none⟩) ⟨hb ++ rest, 0, hb.length⟩ (some v) f).2) ?_
    rcases hc with rfl | rfl <;> simp only [turnUl, e, peek_three] <;> rw [← e] <;> simp only [parseEndUl, parse_ok q, turn, if_true]
  | uBlck x _ h1 h2 he =>
    have q := read_of (c37_mac_u_blck x h1 h2) he rest
    obtain ⟨r, e⟩ := uBlck_head q
    refine ul_shown (w := ⟨hb ++ rest, 0, hb.length⟩) ?_
    simp only [turnUl, e, peek_three]
    rw [← e]
    simp only [parse_ok q, turn, plain, Bool.false_eq_true, if_false, reduceCtorEq]
    rfl
  | uSignal x _ he =>
    have q := read_of (c37_mac_u_signal x) he rest
    obtain ⟨c, r, e⟩ := uSignal_head q
    refine ul_shown (w := ⟨hb ++ rest, 0, hb.length⟩) ?_
    simp only [turnUl, e, peek_three]
    rw [← e]
    simp only [parse_ok q, turn, plain, if_true]
    rfl
  | resource _ x _ hc hr he =>
    have q := read_of (c37_mac_resource x hr).1 he rest
    obtain ⟨c, r, e⟩ := resource_head q
    refine dl_shown hc (w := (showSdu (.resource x.onAir) ⟨hb ++ rest, 0, hb.length⟩ (some x.lengthInd) x.fillBits).2) ?_
    simp only [turnDl, e, peek_three]
    rw [← e]
    simp only [parseResource, parse_ok q, turn]
    rfl
  | null _ n _ hc hr he =>
    have q := read_of (c37_null_pdu n hr).1 he rest
    obtain ⟨c, r, e⟩ := resource_head q
    refine dl_shown hc (w := (showSdu (.resource { MacResource.null with lengthInd := n }) ⟨hb ++ rest, 0, hb.length⟩ (some n) false).2) ?_
    simp only [turnDl, e, peek_three]
    rw [← e]
    simp only [parseResource, parse_ok q, turn]
    rfl
  | endDl _ x _ hc hr he =>
    have q := read_of (c37_mac_end_dl x hr) he rest
    obtain ⟨r, e⟩ := endDl_head q
    refine dl_shown hc (w := (showSdu (.endDl x) ⟨hb ++ rest, 0, hb.length⟩ (some x.lengthInd) x.fillBits).2) ?_
    simp only [turnDl, e, peek_three]
    rw [← e]
    simp only [parseEndDl, parse_ok q, turn, if_true]
  | fragDl _ x _ hc he =>
    have q := read_of (c37_mac_frag x) he rest
    obtain ⟨r, e⟩ := frag_head q
    refine dl_shown hc (w := ⟨hb ++ rest, 0, hb.length⟩) ?_
    simp only [turnDl, e, peek_three]
    rw [← e]
    simp only [parse_ok q, turn, plain, Bool.false_eq_true, if_false]
    rfl
  | dBlck _ x _ hc h1 h2 h3 he =>
    have q := read_of (c37_mac_d_blck x h1 h2 h3) he rest
    obtain ⟨r, e⟩ := dBlck_head q
    refine dl_shown hc (w := ⟨hb ++ rest, 0, hb.length⟩) ?_
    simp only [turnDl, e, peek_three]
    rw [← e]
    simp only [parse_ok q, turn, plain, Bool.false_eq_true, if_false]
    rfl
  | sysinfo _ x _ hc hr he =>
    have q := read_of (c37_mac_sysinfo x hr) he rest
    obtain ⟨r, e⟩ := sysinfo_head he
    refine dl_shown hc (w := ⟨hb ++ rest, 0, hb.length⟩) ?_
    have pk : (Win.of (hb ++ rest)).peekStart ((Win.of (hb ++ rest)).pos - (Win.of (hb ++ rest)).start + 2) 2 = some [false, false] := by
      rw [e]; simp [Win.peekStart, Win.of]
    have p3 : (Win.of (hb ++ rest)).peek 3 = some [true, false, false] := by rw [e]; exact peek_three _ _ _ _
    simp only [turnDl, p3, parseBroadcast, pk, parse_ok q, turn, plain]
    rfl
  | accessDefine _ x _ hc hr he =>
    have q := read_of (c37_access_define x hr) he rest
    obtain ⟨r, e⟩ := accessDefine_head q
    refine dl_shown hc (w := ⟨hb ++ rest, 0, hb.length⟩) ?_
    have pk : (Win.of (hb ++ rest)).peekStart ((Win.of (hb ++ rest)).pos - (Win.of (hb ++ rest)).start + 2) 2 = some [false, true] := by
      rw [e]; simp [Win.peekStart, Win.of]
    have p3 : (Win.of (hb ++ rest)).peek 3 = some [true, false, false] := by rw [e]; exact peek_three _ _ _ _
    simp only [turnDl, p3, parseBroadcast, pk, parse_ok q, turn, plain]
    rfl
  | sync x _ h1 h2 h3 h4 h5 h6 h7 he =>
    have q := read_of (c37_mac_sync x h1 h2 h3 h4 h5 h6 h7).1 he rest
    simp only [tool, if_true, parseDl, parse_ok q]
    rfl

/-! ## The end of a PDU -/

theorem peekStart_one {bits : List Bool} {h k : Nat} (hk : k < bits.length) :
    Win.peekStart ⟨bits, 0, h⟩ (0 + k) 1 = some [bits[k]] := by
  unfold Win.peekStart
  rw [if_neg (by simp; omega)]
  simp only [Nat.zero_add, Option.some.injEq]
  rw [List.drop_eq_getElem_cons hk]
  rfl

/-- The fill bits of a string which ends with a one and `k` zeros are these `k + 1` bits. -/
theorem countFill_eq {a b : List Bool} {k h : Nat} :
    countFill ⟨a ++ true :: List.replicate k false ++ b, 0, h⟩ (a.length + 1 + k) = k + 1 := by
  unfold countFill
  suffices H : ∀ j, j ≤ k → countFillFrom ⟨a ++ true :: List.replicate k false ++ b, 0, h⟩ (a.length + 1 + k) (a.length + 1 + j) = k + 1 from
    H k (Nat.le_refl k)
  intro j hj
  induction j with
  | zero =>
    simp only [countFillFrom]
    rw [peekStart_one (by simp)]
    simp only [List.append_assoc, List.cons_append, List.getElem_append_right (Nat.le_refl _), Nat.sub_self, List.getElem_cons_zero]
    omega
  | succ j ih =>
    rw [show a.length + 1 + (j + 1) = (a.length + 1 + j) + 1 by omega]
    simp only [countFillFrom]
    rw [peekStart_one (by simp; omega)]
    have : (a ++ true :: List.replicate k false ++ b)[a.length + 1 + j]'(by simp; omega) = false := by
      simp only [List.append_assoc, List.cons_append]
      rw [List.getElem_append_right (by omega)]
      simp only [show a.length + 1 + j - a.length = j + 1 by omega, List.getElem_cons_succ]
      rw [List.getElem_append_left (by simp; omega)]
      simp
    rw [this]
    exact ih (by omega)

/-- The lengths which are lengths. -/
theorem interpret_len {l n : Nat} (h2 : 2 ≤ l) (h57 : l ≤ 57) : interpret l n = ⟨min (l * 8) n, false, false, false⟩ := by
  unfold interpret
  rw [if_neg (by omega), if_neg (by omega), if_pos h57]

/-- What is shown of a PDU of `8 l` bits when enough follows it. -/
theorem show_room {h : Hdr} {hb body next : List Bool} {l : Nat} {f : Bool} (h2 : 2 ≤ l) (h57 : l ≤ 57) (hl : (hb ++ body).length = 8 * l)
    (hn : hb.length ≤ next.length) (hs : l ≤ 8 → hb.length + 8 * l ≤ next.length) :
    ∃ w, (showSdu h ⟨hb ++ (body ++ next), 0, hb.length⟩ (some l) f).1 =
      ⟨h, some (8 * l, if l ≤ 8 then some ((body ++ next).take (8 * l)) else none),
        some ⟨8 * l, 8 * l - (if f then countFill ⟨hb ++ body ++ next, 0, w⟩ (8 * l) else 0), if 16 ≤ next.length then some next else none⟩⟩ := by
  have len : (hb ++ (body ++ next)).length = 8 * l + next.length := by rw [← List.append_assoc, List.length_append, hl]
  have hb8 : hb.length ≤ 8 * l := by rw [← hl]; simp
  have e1 : min (l * 8) (8 * l + next.length - hb.length) = 8 * l := by omega
  unfold showSdu
  simp only [Win.left, len, interpret_len h2 h57, e1]
  rw [if_pos (by simp; omega), show min (8 * l) (8 * l + next.length - hb.length) = 8 * l by omega]
  refine ⟨(Win.read ⟨hb ++ (body ++ next), 0, hb.length⟩ (8 * l)).pos, ?_⟩
  have pk : Win.peek ⟨hb ++ (body ++ next), 0, hb.length⟩ (8 * l) = if l ≤ 8 then some ((body ++ next).take (8 * l)) else none := by
    unfold Win.peek Win.peekStart
    simp only [len, Nat.sub_zero, Nat.zero_add, List.drop_left]
    by_cases h8 : l ≤ 8
    · rw [if_neg (by omega), if_pos h8]
    · rw [if_pos (by omega), if_neg h8]
  have rd : Win.read ⟨hb ++ (body ++ next), 0, hb.length⟩ (8 * l) =
      ⟨hb ++ (body ++ next), 0, if l ≤ 8 then hb.length + 8 * l else hb.length⟩ := by
    unfold Win.read
    rw [pk]
    by_cases h8 : l ≤ 8
    · rw [if_pos h8, if_pos (by simp), if_pos h8]
    · rw [if_neg h8, if_neg (by simp), if_neg h8]
  simp only [printSdu, pk, rd, associate, Win.left, len, interpret_len h2 h57]
  have e2 : min (l * 8) (8 * l + next.length - if l ≤ 8 then hb.length + 8 * l else hb.length) = 8 * l := by
    split
    · rename_i h8
      have := hs h8
      omega
    · omega
  rw [e2]
  have e3 : (hb ++ (body ++ next)).drop (8 * l) = next := by
    rw [← List.append_assoc, ← hl, List.drop_left]
  simp only [Bool.or_self, Bool.false_eq_true, if_false, Nat.zero_add, show 8 * l + next.length - 8 * l = next.length by omega, e3, List.take_length,
    List.append_assoc]

/-! ## The property -/

/-- **C100, headers.** Whatever bits follow a header which a station has written, the tool shows this header, and only this PDU. -/
theorem c100_header {down : Bool} {ch : Chan} {h : Hdr} {l : Option Nat} {f : Bool} {hb : List Bool} (hw : Wire down ch h l f hb)
    (rest : List Bool) : ∃ s, tool down ch (hb ++ rest) = .ok [s] ∧ s.hdr = h := by
  refine ⟨_, tool_wire hw rest, ?_⟩
  unfold showSdu
  split
  · rfl
  · simp only
    split <;> rfl

/-- **C100, next block.** A PDU of `l` octets, followed by at least as many bits as its header has (and as many again as itself, if
it has at most eight octets): the tool says how long it is and that the bits after it are the next block, if there are at least
sixteen. -/
theorem c100_next_block_partial {down : Bool} {ch : Chan} {h : Hdr} {l : Nat} {f : Bool} {hb : List Bool} (hw : Wire down ch h (some l) f hb)
    (h2 : 2 ≤ l) (h57 : l ≤ 57) {body next : List Bool} (hl : (hb ++ body).length = 8 * l)
    (hn : hb.length ≤ next.length) (hs : l ≤ 8 → hb.length + 8 * l ≤ next.length) :
    ∃ s a, tool down ch (hb ++ body ++ next) = .ok [s] ∧ s.assoc = some a ∧ a.len = 8 * l ∧
      a.next = if 16 ≤ next.length then some next else none := by
  obtain ⟨w, e⟩ := show_room (h := h) (f := f) h2 h57 hl hn hs
  refine ⟨_, _, by rw [List.append_assoc]; exact tool_wire hw _, by rw [e], rfl, rfl⟩

/-- The number of bits of a block of `n` bits behind what the tool shows of a PDU of `l` octets with a header of `h` bits: as SDU it
shows as many bits behind the header as the whole PDU has, or the rest of the block, or nothing if these are more than 64. -/
def behind (n h l : Nat) : Nat := if min (8 * l) (n - h) ≤ 64 then n - h - min (8 * l) (n - h) else n - h

theorem show_assoc {h : Hdr} {hb rest : List Bool} {l : Nat} {f : Bool} (h2 : 2 ≤ l) (h57 : l ≤ 57) :
    ∃ k, (showSdu h ⟨hb ++ rest, 0, hb.length⟩ (some l) f).1.assoc =
      some ⟨min (8 * l) (behind (hb ++ rest).length hb.length l), k,
        if 16 ≤ (hb ++ rest).length - min (8 * l) (behind (hb ++ rest).length hb.length l)
          then some ((hb ++ rest).drop (min (8 * l) (behind (hb ++ rest).length hb.length l))) else none⟩ := by
  have len : (hb ++ rest).length - hb.length = rest.length := by simp
  have len' : (hb ++ rest).length = hb.length + rest.length := by simp
  have key : ∀ pos, (hb ++ rest).length - pos = behind (hb ++ rest).length hb.length l →
      ∃ k, associate ⟨hb ++ rest, 0, pos⟩ (some l) f =
        some ⟨min (8 * l) (behind (hb ++ rest).length hb.length l), k,
          if 16 ≤ (hb ++ rest).length - min (8 * l) (behind (hb ++ rest).length hb.length l)
            then some ((hb ++ rest).drop (min (8 * l) (behind (hb ++ rest).length hb.length l))) else none⟩ := by
    intro pos hp
    refine ⟨min (8 * l) (behind (hb ++ rest).length hb.length l) -
      if f then countFill ⟨hb ++ rest, 0, pos⟩ (min (8 * l) (behind (hb ++ rest).length hb.length l)) else 0, ?_⟩
    simp only [associate, Win.left, hp, interpret_len h2 h57, Bool.or_self, Bool.false_eq_true, if_false, Nat.zero_add, Nat.mul_comm l 8]
    rw [List.take_of_length_le (by rw [List.length_drop]; omega)]
  unfold showSdu
  simp only [Win.left, len, interpret_len h2 h57, Bool.not_false, Bool.true_and]
  split
  · rename_i hpos
    simp only [decide_eq_true_eq] at hpos
    have e : min (min (l * 8) rest.length) rest.length = min (8 * l) rest.length := by omega
    rw [e]
    have hr : Win.read ⟨hb ++ rest, 0, hb.length⟩ (min (8 * l) rest.length) =
        ⟨hb ++ rest, 0, if min (8 * l) rest.length ≤ 64 then hb.length + min (8 * l) rest.length else hb.length⟩ := by
      have pk : (Win.peek ⟨hb ++ rest, 0, hb.length⟩ (min (8 * l) rest.length)).isSome = decide (min (8 * l) rest.length ≤ 64) := by
        unfold Win.peek Win.peekStart
        simp only [Nat.sub_zero, Nat.zero_add, len']
        by_cases h64 : min (8 * l) rest.length ≤ 64
        · rw [if_neg (by omega), decide_eq_true h64]
          rfl
        · rw [if_pos (by omega), decide_eq_false h64]
          rfl
      unfold Win.read
      rw [pk]
      by_cases h64 : min (8 * l) rest.length ≤ 64
      · rw [if_pos (decide_eq_true h64), if_pos h64]
      · rw [if_neg (by simp [h64]), if_neg h64]
    simp only [printSdu, hr]
    apply key
    unfold behind
    rw [len]
    split <;> omega
  · rename_i hpos
    simp only [decide_eq_true_eq] at hpos
    apply key
    unfold behind
    rw [len]
    split <;> omega

/-- **C100, next block, exactly.** Of a PDU of `l` octets the tool suggests as next block the bits behind it (or none, if they are
fewer than the 16 of a null PDU) just if behind the SDU which it shows there are as many bits left as the PDU has, or none are to be
suggested anyway. -/
theorem c100_next_block_iff {down : Bool} {ch : Chan} {h : Hdr} {l : Nat} {f : Bool} {hb : List Bool} (hw : Wire down ch h (some l) f hb)
    (h2 : 2 ≤ l) (h57 : l ≤ 57) {body next : List Bool} (hl : (hb ++ body).length = 8 * l) :
    ∃ s a, tool down ch (hb ++ body ++ next) = .ok [s] ∧ s.assoc = some a ∧
      (a.next = (if 16 ≤ next.length then some next else none) ↔
        8 * l ≤ behind (8 * l + next.length) hb.length l ∨ 8 * l + next.length < behind (8 * l + next.length) hb.length l + 16) := by
  obtain ⟨k, e⟩ := show_assoc (h := h) (hb := hb) (rest := body ++ next) (f := f) h2 h57
  refine ⟨_, _, by rw [List.append_assoc]; exact tool_wire hw _, e, ?_⟩
  have len : (hb ++ (body ++ next)).length = 8 * l + next.length := by rw [← List.append_assoc, List.length_append, hl]
  simp only [len]
  have hle : behind (8 * l + next.length) hb.length l ≤ 8 * l + next.length := by unfold behind; split <;> omega
  generalize behind (8 * l + next.length) hb.length l = R at *
  by_cases hR : 8 * l ≤ R
  · rw [Nat.min_eq_left hR, ← List.append_assoc, ← hl, List.drop_left, show (hb ++ body).length + next.length - (hb ++ body).length = next.length by omega]
    simp only [true_iff]
    exact Or.inl (by rw [hl]; exact hR)
  · rw [Nat.min_eq_right (by omega)]
    by_cases h16 : 16 ≤ 8 * l + next.length - R
    · rw [if_pos h16]
      constructor
      · intro he
        exfalso
        split at he
        · have := congrArg List.length (Option.some.inj he)
          rw [List.length_drop, len] at this
          omega
        · cases he
      · intro; omega
    · rw [if_neg h16, if_neg (by omega)]
      simp only [true_iff]
      omega

/-- Finding: as SDU the tool shows as many bits behind the header as the whole PDU has, so that with the SDU it shows the fill bits
and the beginning of the next PDU; and nothing at all if the PDU is longer than eight octets. -/
theorem c100_sdu_finding {down : Bool} {ch : Chan} {h : Hdr} {l : Nat} {f : Bool} {hb : List Bool} (hw : Wire down ch h (some l) f hb)
    (h2 : 2 ≤ l) (h57 : l ≤ 57) {body next : List Bool} (hl : (hb ++ body).length = 8 * l)
    (hn : hb.length ≤ next.length) (hs : l ≤ 8 → hb.length + 8 * l ≤ next.length) :
    ∃ s, tool down ch (hb ++ body ++ next) = .ok [s] ∧
      s.sdu = some (8 * l, if l ≤ 8 then some (body ++ next.take hb.length) else none) := by
  obtain ⟨w, e⟩ := show_room (h := h) (f := f) h2 h57 hl hn hs
  refine ⟨_, by rw [List.append_assoc]; exact tool_wire hw _, ?_⟩
  rw [e]
  simp only [Option.some.injEq, Prod.mk.injEq, true_and]
  split
  · rw [List.take_append, List.take_of_length_le (by rw [← hl]; simp)]
    rw [show 8 * l - body.length = hb.length by rw [← hl]; simp]
  · rfl

/-- Finding: what is called the effective length of the SDU is the length of the header and the SDU, without the fill bits. -/
theorem c100_sdu_length_finding {down : Bool} {ch : Chan} {h : Hdr} {l : Nat} {hb : List Bool} (hw : Wire down ch h (some l) true hb)
    (h2 : 2 ≤ l) (h57 : l ≤ 57) {sdu next : List Bool} {k : Nat} (hl : (hb ++ (sdu ++ true :: List.replicate k false)).length = 8 * l)
    (hn : hb.length ≤ next.length) (hs : l ≤ 8 → hb.length + 8 * l ≤ next.length) :
    ∃ s a, tool down ch (hb ++ (sdu ++ true :: List.replicate k false) ++ next) = .ok [s] ∧ s.assoc = some a ∧
      a.sduLen = hb.length + sdu.length := by
  obtain ⟨w, e⟩ := show_room (h := h) (f := true) h2 h57 hl hn hs
  refine ⟨_, _, by rw [List.append_assoc]; exact tool_wire hw _, by rw [e], ?_⟩
  have len : 8 * l = (hb ++ sdu).length + 1 + k := by rw [← hl]; simp; omega
  simp only [if_true]
  rw [len, ← List.append_assoc hb, countFill_eq]
  simp
  omega

/-- Finding: of a PDU which fills its block, with at most 64 bits behind its header, the tool says that it has no bits and that the
next block is the very same block. -/
theorem c100_same_block_finding {down : Bool} {ch : Chan} {h : Hdr} {l : Nat} {f : Bool} {hb : List Bool} (hw : Wire down ch h (some l) f hb)
    (h2 : 2 ≤ l) (h57 : l ≤ 57) {body : List Bool} (hl : (hb ++ body).length = 8 * l) (h0 : body ≠ []) (h64 : body.length ≤ 64) :
    ∃ s a, tool down ch (hb ++ body) = .ok [s] ∧ s.assoc = some a ∧ a.len = 0 ∧ a.next = some (hb ++ body) := by
  have len : hb.length + body.length = 8 * l := by rw [← hl]; simp
  have hp : 0 < body.length := List.length_pos_iff.2 h0
  refine ⟨_, ⟨0, 0, some (hb ++ body)⟩, tool_wire hw body, ?_, rfl, rfl⟩
  unfold showSdu
  simp only [Win.left, hl, interpret_len h2 h57]
  rw [show min (l * 8) (8 * l - hb.length) = body.length by omega, if_pos (by simp; omega), show min body.length (8 * l - hb.length) = body.length by omega]
  have rd : Win.read ⟨hb ++ body, 0, hb.length⟩ body.length = ⟨hb ++ body, 0, 8 * l⟩ := by
    unfold Win.read
    have : (Win.peek ⟨hb ++ body, 0, hb.length⟩ body.length).isSome = true := by
      unfold Win.peek Win.peekStart
      simp only [hl, Nat.sub_zero, Nat.zero_add]
      rw [if_neg (by omega)]
      rfl
    rw [if_pos this, len]
  simp only [printSdu, rd, associate, Win.left, hl, Nat.sub_self, interpret_len h2 h57, Nat.min_zero, Bool.or_self, Bool.false_eq_true, if_false,
    Nat.zero_sub, Nat.add_zero, Nat.sub_zero, List.drop_zero, Option.some.injEq]
  rw [if_pos (by omega), ← hl, List.take_length]

/-- **C100, no abort (uplink).** On the uplink the tool shows at most one PDU of any string of bits, on any channel, and does not
abort. -/
theorem c100_uplink_total (ch : Chan) (bits : List Bool) : ∃ r, parseUl ch bits = .ok r ∧ r.length ≤ 1 := by
  rw [parseUl_eq]
  have key : ∀ {α : Type} (p : Rd α) (f : α → Win → Shown × Win) (B : List Bool), p.run B ≠ .panic → ∃ t, turn (parse (Win.of B) p f) = .ok t := by
    intro α p f B hp
    unfold parse Win.header
    simp only [Win.of, List.drop_zero]
    cases h : p.run B with
    | ok r => obtain ⟨a, r⟩ := r; exact ⟨_, rfl⟩
    | err => exact ⟨_, rfl⟩
    | panic => exact absurd h hp
  have : ∃ t, turnUl ch (Win.of bits) = .ok t := by
    unfold turnUl
    rcases bits with _ | ⟨a, _ | ⟨b, _ | ⟨c, r⟩⟩⟩
    · exact ⟨none, by simp [Win.peek, Win.peekStart, Win.of]⟩
    · exact ⟨none, by simp [Win.peek, Win.peekStart, Win.of]⟩
    · exact ⟨none, by simp [Win.peek, Win.peekStart, Win.of]⟩
    rw [peek_three]
    cases ch <;> cases a <;> cases b <;> cases c <;> simp only [if_true, if_false, Bool.false_eq_true, reduceCtorEq]
    all_goals first
      | exact ⟨none, rfl⟩
      | exact key _ _ _ (access_safe _)
      | exact key _ _ _ (endHu_safe _)
      | exact key _ _ _ (data_safe _)
      | exact key _ _ _ (endUl_safe _)
      | exact key _ _ _ (frag_safe _)
      | exact key _ _ _ (blck_safe _)
      | exact key _ _ _ (by rw [signal_safe]; simp)
  obtain ⟨t, ht⟩ := this
  rw [ht]
  refine ⟨_, rfl, ?_⟩
  match t with
  | none => simp
  | some (s, _) => cases s <;> simp

/-- **C100, downlink.** On the downlink, too, at most one PDU is shown. -/
theorem c100_downlink_one (ch : Chan) (bits : List Bool) (r : List Shown) (h : parseDl ch bits = .ok r) : r.length ≤ 1 := by
  cases ch <;> simp only [parseDl] at h
  case aach => cases h; simp
  case bsch =>
    split at h <;> cases h
    rename_i r _
    cases r.1 <;> simp
  case schF =>
    rw [rounds_dl, Out.bind_eq_ok] at h
    obtain ⟨t, _, h⟩ := h
    cases h
    match t with
    | none => simp
    | some (s, _) => cases s <;> simp
  case schHd =>
    rw [rounds_dl, Out.bind_eq_ok] at h
    obtain ⟨t, _, h⟩ := h
    cases h
    match t with
    | none => simp
    | some (s, _) => cases s <;> simp
  all_goals cases h

/-- Finding: three of the channels offered abort the tool on the downlink, whatever the bits. -/
theorem c100_downlink_channels_abort (bits : List Bool) :
    parseDl .stch bits = .panic ∧ parseDl .bnch bits = .panic ∧ parseDl .schHu bits = .panic := ⟨rfl, rfl, rfl⟩

/-- Finding: a MAC-RESOURCE with a channel allocation of an extended carrier number aborts the tool. -/
theorem c100_downlink_bits_abort : ∃ bits, parseDl .schF bits = .panic :=
  ⟨toBits 16 0b0000000001010001 ++ toBits 24 1001 ++ [false, false, true] ++ List.replicate 22 false ++ List.replicate 80 true, by decide +kernel⟩

/-! ## A sample -/

/-- A MAC-DATA of ten octets. -/
def sampleHdr : MacData := ⟨true, false, some ⟨1001, .ssi, false⟩, none, some 10, none, none⟩
def sampleBits : List Bool := toBits 2 0 ++ [true, false] ++ toBits 2 0 ++ toBits 24 1001 ++ [false] ++ toBits 6 10

theorem sample_wire : Wire false .schF (.data sampleHdr) (some 10) true sampleBits :=
  Wire.data .schF sampleHdr sampleBits (Or.inl rfl) (by simp [sampleHdr, MacData.InRange, UlAddressed]) (by decide +kernel)

/-- Of this PDU in a full slot the next block is suggested just if it is one of at least 37 bits behind it. -/
example (next : List Bool) : (8 * 10 ≤ behind (8 * 10 + next.length) sampleBits.length 10 ∨
    8 * 10 + next.length < behind (8 * 10 + next.length) sampleBits.length 10 + 16) ↔ 37 ≤ next.length := by
  have : sampleBits.length = 37 := by decide +kernel
  unfold behind
  rw [this]
  split <;> omega

/-- The hypotheses of the theorems are met in a full slot of 268 bits; its second PDU is not shown. -/
example : ∃ s a, tool false .schF (sampleBits ++ List.replicate 43 true ++ (sampleBits ++ List.replicate 151 true)) = .ok [s] ∧
    s.hdr = .data sampleHdr ∧ s.assoc = some a ∧ a.next = some (sampleBits ++ List.replicate 151 true) ∧
    pdusOf .schF (sampleBits ++ List.replicate 43 true ++ (sampleBits ++ List.replicate 151 true)) =
      [.data sampleHdr, .data sampleHdr, .other] := by
  obtain ⟨s, a, h1, h2, _, h4⟩ := c100_next_block_partial sample_wire (by decide) (by decide) (body := List.replicate 43 true)
    (next := sampleBits ++ List.replicate 151 true) (by decide +kernel) (by decide +kernel) (by decide)
  obtain ⟨s', h1', h2'⟩ := c100_header sample_wire (List.replicate 43 true ++ (sampleBits ++ List.replicate 151 true))
  rw [← List.append_assoc, h1] at h1'
  cases h1'
  exact ⟨s, a, h1, h2', h2, by rw [h4, if_pos (by decide +kernel)], by decide +kernel⟩

end Verif.Tool
