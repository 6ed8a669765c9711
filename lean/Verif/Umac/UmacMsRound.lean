import Verif.Umac.UmacMs
import Verif.Umac.SchedSlot
import Verif.Umac.MsReassembly
/-!
# How the upper MAC of a mobile station reads a block built by the channel scheduler: lemmas
-/
namespace Verif.Umac
open Verif.Bits Verif.Codec Verif.Tdma Verif.Mle

/-! ## One PDU -/

/-- The last `k` bits of `sdu` are missing from `got`; with less than four bits missing, what then looks like fill bits has been
taken for fill bits. -/
inductive Short (k : Nat) (sdu : List Bool) : List Bool → Prop
  | four (got last : List Bool) (hk : k = 4) (hl : last.length = 4) (h : sdu = got ++ last) : Short k sdu got
  | zeroes (n : Nat) (last : List Bool) (hk : 1 ≤ k ∧ k ≤ 3) (hl : last.length = k)
      (h : sdu = List.replicate n false ++ last) : Short k sdu (List.replicate n false)
  | filled (got last : List Bool) (n : Nat) (hk : 1 ≤ k ∧ k ≤ 3) (hl : last.length = k)
      (h : sdu = got ++ (true :: List.replicate n false) ++ last) : Short k sdu got

theorem fillCount_cases (l : List Bool) :
    (∃ n, l = List.replicate n false ∧ l.take (l.length - fillCount l) = l) ∨
    (∃ got n, l = got ++ (true :: List.replicate n false) ∧ l.take (l.length - fillCount l) = got) := by
  by_cases h : ∃ n, l = List.replicate n false
  · obtain ⟨n, rfl⟩ := h
    refine .inl ⟨n, rfl, ?_⟩
    have : fillCount (List.replicate n false) = 0 := by
      unfold fillCount
      have : (List.replicate n false).reverse.dropWhile (fun b => !b) = [] := by
        rw [List.reverse_replicate]
        induction n with
        | zero => rfl
        | succ n ih => rw [List.replicate_succ]; simp [List.dropWhile, ih]
      rw [this]
    rw [this]; simp
  · right
    have key : ∃ got n, l = got ++ (true :: List.replicate n false) := by
      generalize hm : l.reverse = m
      have hl : l = m.reverse := by rw [← hm]; simp
      subst hl
      clear hm
      induction m with
      | nil => exact absurd ⟨0, rfl⟩ h
      | cons b m ih =>
        cases b with
        | true => exact ⟨m.reverse, 0, by simp⟩
        | false =>
          have h' : ¬ ∃ n, m.reverse = List.replicate n false := by
            rintro ⟨n, hn⟩
            refine h ⟨n + 1, ?_⟩
            rw [List.reverse_cons, hn, ← List.replicate_succ']
          obtain ⟨got, n, hg⟩ := ih h'
          refine ⟨got, n + 1, ?_⟩
          rw [List.reverse_cons, hg, List.replicate_succ']; simp
    obtain ⟨got, n, rfl⟩ := key
    refine ⟨got, n, rfl, ?_⟩
    have := fillCount_append got (n + 1) (by omega)
    simp only [fillPattern] at this
    rw [this]
    simp

/-- The address under which a message arrives. -/
theorem onAir_addr {r r' : MacResource} (h : r.addr = r'.addr) : r.onAir.addr = r'.onAir.addr := by
  simp [MacResource.onAir, h]

section
variable {f f' : Fragger} {b : Blk} {a : Addr} {t : Time} {sc : Nat}

theorem ms_whole (s : UmacMs) (hdr : List Bool) (n : Nat) (r : MacResource)
    (hr : r = { f.resource with lengthInd := (hdr ++ (f.sdu ++ fillPattern n)).length / 8, fillBits := decide (n > 0) })
    (he : r.enc = .ok hdr) (hd : ∀ rest, MacResource.dec.run (hdr ++ rest) = .ok (r.onAir, rest))
    (h16 : 16 ≤ hdr.length) (hsmall : (hdr ++ (f.sdu ++ fillPattern n)).length ≤ 268)
    (h8 : (hdr ++ (f.sdu ++ fillPattern n)).length % 8 = 0)
    (ha : f.resource.onAir.addr = some a) (hc : f.resource.encryptionMode = 0) (tail : List Bool) :
    s.round t sc (hdr ++ (f.sdu ++ fillPattern n) ++ tail) =
      .ok (s, if f.sdu = [] then [] else [.sdu a f.sdu sc], some tail) := by
  obtain ⟨q, hq⟩ := macResource_enc_shape he
  generalize hL : (hdr ++ (f.sdu ++ fillPattern n)).length = L at *
  have hrun : MacResource.dec.run (hdr ++ (f.sdu ++ fillPattern n) ++ tail) = .ok (r.onAir, f.sdu ++ fillPattern n ++ tail) := by
    have := hd (f.sdu ++ fillPattern n ++ tail)
    simpa [List.append_assoc] using this
  have hrx : s.round t sc (hdr ++ (f.sdu ++ fillPattern n) ++ tail) =
      s.rxResource t sc (hdr ++ (f.sdu ++ fillPattern n) ++ tail) := by
    rw [hq]; rfl
  have hfl : r.onAir.lengthInd = L / 8 := by rw [hr]; rfl
  have hff : r.onAir.fillBits = decide (n > 0) := by rw [hr]; rfl
  have hfa : r.onAir.addr = some a := by rw [← ha]; exact onAir_addr (by rw [hr])
  have hfe : ¬ r.onAir.encryptionMode > 0 := by rw [hr]; simp [MacResource.onAir, hc]
  have htl : (hdr ++ (f.sdu ++ fillPattern n) ++ tail).length = L + tail.length := by
    rw [List.length_append, hL]
  have hdl : (f.sdu ++ fillPattern n ++ tail).length + hdr.length = L + tail.length := by
    rw [← hL]; simp only [List.length_append]; omega
  have hge : hdr.length ≤ L := by rw [← hL]; simp
  have hlen : resourceLen (L / 8) (hdr ++ (f.sdu ++ fillPattern n) ++ tail).length = .ok L := by
    unfold resourceLen
    rw [if_pos (by omega), htl]
    congr 1; omega
  have hcut : cutPdu (hdr ++ (f.sdu ++ fillPattern n) ++ tail)
      ((hdr ++ (f.sdu ++ fillPattern n) ++ tail).length - (f.sdu ++ fillPattern n ++ tail).length) L (decide (n > 0)) = .ok f.sdu :=
    cutPdu_part' hdr f.sdu tail _ n _ _ _ rfl (by omega) (by omega) rfl
  have hdrop : (hdr ++ (f.sdu ++ fillPattern n) ++ tail).drop L = tail := by rw [← hL]; exact List.drop_left
  rw [hrx]
  simp only [UmacMs.rxResource, hrun, hfl, hff, hfa, hfe, hlen, Out.bind_ok, hcut, hdrop, if_false]
  rw [if_neg (by omega), if_neg (by omega)]

theorem ms_cut (s : UmacMs) (hdr : List Bool) (n : Nat) (r : MacResource)
    (hr : r = { f.resource with lengthInd := (hdr ++ (f.sdu ++ fillPattern n)).length / 8, fillBits := decide (n > 0) })
    (he : r.enc = .ok hdr) (hd : ∀ rest, MacResource.dec.run (hdr ++ rest) = .ok (r.onAir, rest))
    (h16 : 16 ≤ hdr.length) (hsmall : (hdr ++ (f.sdu ++ fillPattern n)).length ≤ 268)
    (h4 : (hdr ++ (f.sdu ++ fillPattern n)).length % 8 = 4) (k : Nat) (hk : (hdr.length + f.sdu.length) % 8 = k)
    (hkn : k + n = 4) (hk1 : 1 ≤ k)
    (ha : f.resource.onAir.addr = some a) (hc : f.resource.encryptionMode = 0) :
    (s.round t sc (hdr ++ (f.sdu ++ fillPattern n)) = .panic ∧ f.sdu.length < k) ∨
    ∃ got rest, Short k f.sdu got ∧ rest.length < 16 ∧
      s.round t sc (hdr ++ (f.sdu ++ fillPattern n)) = .ok (s, if got = [] then [] else [.sdu a got sc], some rest) := by
  obtain ⟨q, hq⟩ := macResource_enc_shape he
  generalize hL : (hdr ++ (f.sdu ++ fillPattern n)).length = L at *
  have hLl : hdr.length + f.sdu.length + n = L := by rw [← hL]; simp [length_fillPattern]; omega
  have hrun : MacResource.dec.run (hdr ++ (f.sdu ++ fillPattern n)) = .ok (r.onAir, f.sdu ++ fillPattern n) := hd _
  have hrx : s.round t sc (hdr ++ (f.sdu ++ fillPattern n)) = s.rxResource t sc (hdr ++ (f.sdu ++ fillPattern n)) := by
    rw [hq]; rfl
  have hfl : r.onAir.lengthInd = L / 8 := by rw [hr]; rfl
  have hff : r.onAir.fillBits = decide (n > 0) := by rw [hr]; rfl
  have hfa : r.onAir.addr = some a := by rw [← ha]; exact onAir_addr (by rw [hr])
  have hfe : ¬ r.onAir.encryptionMode > 0 := by rw [hr]; simp [MacResource.onAir, hc]
  have hlen : resourceLen (L / 8) (hdr ++ (f.sdu ++ fillPattern n)).length = .ok (L - 4) := by
    unfold resourceLen
    rw [if_pos (by omega), hL]
    congr 1; omega
  have hhl : (hdr ++ (f.sdu ++ fillPattern n)).length - (f.sdu ++ fillPattern n).length = hdr.length := by simp
  rw [hrx]
  simp only [UmacMs.rxResource, hrun, hfl, hff, hfa, hfe, hlen, Out.bind_ok, if_false, hhl]
  simp only [cutPdu, hL]
  by_cases hbad : L - 4 < hdr.length ∨ L < L - 4
  · rw [if_pos hbad]; exact .inl ⟨rfl, by omega⟩
  · rw [if_neg hbad]
    have hsl : k ≤ f.sdu.length := by omega
    have hbody : ((hdr ++ (f.sdu ++ fillPattern n)).take (L - 4)).drop hdr.length = f.sdu.take (f.sdu.length - k) := by
      rw [List.drop_take, List.drop_left, List.take_append_of_le_length (by omega)]
      congr 1; omega
    rw [hbody]
    rw [Out.bind_ok, if_neg (by omega : ¬ L / 8 = 63), if_neg (by omega : ¬ L / 8 = 62)]
    have hsplit : f.sdu = f.sdu.take (f.sdu.length - k) ++ f.sdu.drop (f.sdu.length - k) := (List.take_append_drop _ _).symm
    have hlast : (f.sdu.drop (f.sdu.length - k)).length = k := by simp; omega
    generalize hp : f.sdu.take (f.sdu.length - k) = p at *
    generalize hz : f.sdu.drop (f.sdu.length - k) = z at *
    have hrl : ((hdr ++ (f.sdu ++ fillPattern n)).drop (L - 4)).length < 16 := by
      rw [List.length_drop, hL]; omega
    refine .inr ⟨if decide (n > 0) = true then p.take (p.length - fillCount p) else p, _, ?_, hrl, rfl⟩
    by_cases hn : n > 0
    · simp only [hn, decide_true, if_true]
      rcases fillCount_cases p with ⟨m, e1, e2⟩ | ⟨got, m, e1, e2⟩
      · rw [e2, e1]
        exact .zeroes m z ⟨by omega, by omega⟩ hlast (by rw [← e1]; exact hsplit)
      · rw [e2]
        exact .filled got z m ⟨by omega, by omega⟩ hlast (by rw [← e1]; exact hsplit)
    · have : n = 0 := by omega
      subst this
      simp only [Nat.lt_irrefl, gt_iff_lt, decide_false, Bool.false_eq_true, if_false]
      exact .four p z (by omega) (by omega) hsplit

/-- What the reassembly of a timeslot can be between two PDUs. -/
def Clean (d : DefragBuf) : Prop := d.state = .active ∨ d = DefragBuf.new

theorem ms_start (s : UmacMs) (hdr : List Bool) (n : Nat) (r : MacResource)
    (hr : r = { f.resource with lengthInd := 63, fillBits := false }) (he : r.enc = .ok hdr)
    (hd : ∀ rest, MacResource.dec.run (hdr ++ rest) = .ok (r.onAir, rest))
    (ha : f.resource.onAir.addr = some a) (hc : f.resource.encryptionMode = 0) {i : Fin 4} (ht : t.t = i.val + 1)
    (hcl : Clean (s.defrag i)) :
    ∃ d, s.round t sc (hdr ++ f.sdu.take n) = .ok ({ s with defrag := s.defrag.upd i d }, [], some []) ∧
      d.state = .active ∧ d.addr = a ∧ d.bits = f.sdu.take n := by
  obtain ⟨q, hq⟩ := macResource_enc_shape he
  have hrun := hd (f.sdu.take n)
  have hrx : s.round t sc (hdr ++ f.sdu.take n) = s.rxResource t sc (hdr ++ f.sdu.take n) := by rw [hq]; rfl
  have hfl : r.onAir.lengthInd = 63 := by rw [hr]; rfl
  have hff : r.onAir.fillBits = false := by rw [hr]; rfl
  have hfa : r.onAir.addr = some a := by rw [← ha]; exact onAir_addr (by rw [hr])
  have hfe : ¬ r.onAir.encryptionMode > 0 := by rw [hr]; simp [MacResource.onAir, hc]
  have hlen : resourceLen 63 (hdr ++ f.sdu.take n).length = .ok (hdr ++ f.sdu.take n).length := by
    unfold resourceLen
    rw [if_neg (by omega), if_pos (.inr rfl)]
  have hcut : cutPdu (hdr ++ f.sdu.take n) ((hdr ++ f.sdu.take n).length - (f.sdu.take n).length)
      (hdr ++ f.sdu.take n).length false = .ok (f.sdu.take n) :=
    cutPdu_part' hdr (f.sdu.take n) [] _ 0 _ _ _ (by simp [fillPattern]) (by simp only [List.length_append]; omega)
      (by simp [fillPattern]) rfl
  have hidx : Slots.idx t.t = .ok i := Slots.idx_ok.2 ht
  have hold : (if (s.defrag i).state ≠ .inactive then DefragBuf.new else s.defrag i).bits = [] := by
    rcases hcl with h | h
    · simp [h, DefragBuf.new]
    · simp [h, DefragBuf.new]
  refine ⟨⟨.active, a, t, t, 1, f.sdu.take n⟩, ?_, rfl, rfl, rfl⟩
  rw [hrx]
  simp only [UmacMs.rxResource, hrun, hfl, hff, hfa, hfe, hlen, Out.bind_ok, hcut, if_false, if_true, MsDefrag.insertFirst, hidx,
    Res.bind_ok, Out.ofRes_ok, hold, List.nil_append, List.drop_length]

theorem ms_frag (s : UmacMs) (n k : Nat) {i : Fin 4} (ht : t.t = i.val + 1) :
    s.round t sc ([false, true, false, decide (k > 0)] ++ (f.left.take n ++ fillPattern k)) =
      .ok ({ s with defrag := s.defrag.upd i ((s.defrag i).add t (f.left.take n)) }, [], none) := by
  have hrun := macFrag_dec k (f.left.take n ++ fillPattern k)
  have hrx : s.round t sc ([false, true, false, decide (k > 0)] ++ (f.left.take n ++ fillPattern k)) =
      s.rxFrag t ([false, true, false, decide (k > 0)] ++ (f.left.take n ++ fillPattern k)) := rfl
  have hidx : Slots.idx t.t = .ok i := Slots.idx_ok.2 ht
  rw [hrx]
  simp only [UmacMs.rxFrag, hrun]
  rw [cutPdu_part' [false, true, false, decide (k > 0)] (f.left.take n) [] _ k _ _ _ (List.append_nil _).symm ?_ rfl rfl]
  · simp only [Out.bind_ok, MsDefrag.insertNext, hidx, Res.bind_ok, Out.ofRes_ok]
  · simp only [List.length_append, List.length_cons, List.length_nil]; omega

theorem ms_fin (s : UmacMs) (k len : Nat) (hlen : 13 + f.left.length + k = 8 * len) (hl : len < 64) {i : Fin 4}
    (ht : t.t = i.val + 1) (hs : (s.defrag i).state = .active) (ha : (s.defrag i).addr = a)
    (hbits : (s.defrag i).bits ++ f.left = f.sdu) (h4096 : f.sdu.length ≤ 4096) (tail : List Bool) :
    s.round t sc ([false, true, true, decide (k > 0), false] ++ (toBits 6 len ++ [false, false]) ++ (f.left ++ fillPattern k) ++ tail) =
      .ok ({ s with defrag := s.defrag.upd i DefragBuf.new }, [.sdu a f.sdu sc], some tail) := by
  have hrun := macEnd_dec k len hl (f.left ++ fillPattern k ++ tail)
  rw [← List.append_assoc] at hrun
  generalize hb : [false, true, true, decide (k > 0), false] ++ (toBits 6 len ++ [false, false]) ++ (f.left ++ fillPattern k) ++ tail = bs at *
  have hrx : s.round t sc bs = s.rxEnd t sc bs := by rw [← hb]; rfl
  have hidx : Slots.idx t.t = .ok i := Slots.idx_ok.2 ht
  have hbl : bs.length = 13 + (f.left ++ fillPattern k ++ tail).length := by
    rw [← hb]; simp only [List.length_append, List.length_cons, List.length_nil, length_toBits]; omega
  have hdrop : bs.drop (len * 8) = tail := by
    rw [← hb]
    refine List.drop_left' ?_
    simp only [List.length_append, List.length_cons, List.length_nil, length_toBits, length_fillPattern]; omega
  have hcut : cutPdu bs (bs.length - (f.left ++ fillPattern k ++ tail).length) (len * 8) (decide (k > 0)) = .ok f.left := by
    refine cutPdu_part' ([false, true, true, decide (k > 0), false] ++ (toBits 6 len ++ [false, false])) f.left tail _ k _ _ _ hb.symm ?_ ?_ rfl
    · simp only [List.length_append, List.length_cons, List.length_nil, length_toBits] at hbl ⊢; omega
    · simp only [List.length_append, List.length_cons, List.length_nil, length_toBits, length_fillPattern]; omega
  have hov : ¬ (s.defrag i).bits.length + f.left.length > defragMaxLen := by
    have : ((s.defrag i).bits ++ f.left).length ≤ 4096 := by rw [hbits]; exact h4096
    simp only [List.length_append] at this
    simp only [defragMaxLen]; omega
  rw [hrx]
  simp only [UmacMs.rxEnd, hrun]
  rw [if_neg (by omega), hcut]
  simp only [Out.bind_ok, MsDefrag.insertLast, hidx, Res.bind_ok, Out.ofRes_ok, hs, ne_eq, not_true_eq_false, if_false, hov,
    MsDefrag.take, Slots.upd_self, Slots.upd_upd, hdrop, ha, hbits]

theorem null_dec (x : List Bool) : MacResource.dec.run (nullBits ++ x) = .ok (nullPdu, x) := rfl

theorem ms_null (s : UmacMs) (x : List Bool) : s.round t sc (nullBits ++ x) = .ok (s, [], none) := by
  have hrx : s.round t sc (nullBits ++ x) = s.rxResource t sc (nullBits ++ x) := rfl
  rw [hrx]
  simp only [UmacMs.rxResource, null_dec]
  have : resourceLen nullPdu.lengthInd (nullBits ++ x).length = .ok 16 := by
    simp only [resourceLen, nullPdu, nullBits, List.length_append, List.length_replicate, List.length_cons, List.length_nil]
    rw [if_pos (by omega)]
    congr 1; omega
  rw [this, Out.bind_ok]
  have : cutPdu (nullBits ++ x) ((nullBits ++ x).length - x.length) 16 nullPdu.fillBits = .ok [] := by
    unfold cutPdu
    rw [if_neg (by simp [nullBits]; omega)]
    simp [nullBits, nullPdu]; omega
  rw [this, Out.bind_ok]
  rfl

end
end Verif.Umac
