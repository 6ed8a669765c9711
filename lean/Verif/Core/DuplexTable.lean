import Verif.Core.FreqsProps
/-!
# C08 — The table of duplex spacings, written a second time, by spacing
-/
namespace Verif.Freqs

/-- The spacings in Hz, each with the pairs of frequency band and duplex spacing number it belongs to. Number 2 stands for the same
frequency in both directions. -/
def spacings : List (Nat × List (Nat × Nat)) :=
  [(1600000, [(1, 0)]),
   (10000000, [(2, 0), (3, 0), (4, 0), (5, 0), (6, 0)]),
   (4500000, [(1, 1)]),
   (36000000, [(3, 1)]),
   (7000000, [(4, 1)]),
   (45000000, [(8, 1), (9, 1)]),
   (0, (List.range 16).map (·, 2)),
   (8000000, [(3, 3), (4, 3)]),
   (18000000, [(8, 3), (9, 3), (3, 4)]),
   (5000000, [(4, 4)]),
   (30000000, [(6, 4), (7, 4)]),
   (39000000, [(9, 4)]),
   (9500000, [(4, 5)])]

/-- **C08, standard spacings**: for every band and every number which can be sent, the spacing is the one listed, and there is none
where none is listed. -/
theorem c08_table (band duplex : Nat) (hb : band < 16) (hd : duplex < 8) :
    ∃ v, getDefaultDuplexSpacing band duplex = .ok v ∧ ∀ hz, v = some hz ↔ ∃ ps, (hz, ps) ∈ spacings ∧ (band, duplex) ∈ ps := by
  have all : ∀ b : Fin 16, ∀ d : Fin 8, getDefaultDuplexSpacing b.1 d.1 =
      .ok ((spacings.find? fun s => s.2.contains (b.1, d.1)).map (·.1)) := by decide +kernel
  have one : ∀ b : Fin 16, ∀ d : Fin 8, ∀ s ∈ spacings, (b.1, d.1) ∈ s.2 →
      (spacings.find? fun s => s.2.contains (b.1, d.1)) = some s := by decide +kernel
  refine ⟨_, all ⟨band, hb⟩ ⟨duplex, hd⟩, fun hz => ⟨fun h => ?_, fun h => ?_⟩⟩
  · obtain ⟨s, hs, rfl⟩ := Option.map_eq_some_iff.1 h
    have := List.find?_some hs
    exact ⟨s.2, List.mem_of_find?_eq_some hs, by simpa using this⟩
  · obtain ⟨ps, h1, h2⟩ := h
    have := one ⟨band, hb⟩ ⟨duplex, hd⟩ (hz, ps) h1 h2
    simp only at this ⊢
    rw [this]; rfl

end Verif.Freqs
