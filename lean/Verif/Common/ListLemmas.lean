/-!
# List lemmas used across the areas
-/
namespace Verif

theorem inj_on_of_nodup_map {α β : Type} {f : α → β} {l : List α} (h : (l.map f).Nodup)
    {a b : α} (ha : a ∈ l) (hb : b ∈ l) (hab : f a = f b) : a = b := by
  induction l with
  | nil => simp at ha
  | cons x l ih =>
    simp only [List.map_cons, List.nodup_cons] at h
    rcases List.mem_cons.1 ha with rfl | ha
    · rcases List.mem_cons.1 hb with rfl | hb
      · rfl
      · exact absurd (List.mem_map.2 ⟨b, hb, hab.symm⟩) h.1
    · rcases List.mem_cons.1 hb with rfl | hb
      · exact absurd (List.mem_map.2 ⟨a, ‹a ∈ l›, hab⟩ : f b ∈ l.map f) h.1
      · exact ih h.2 ha hb

end Verif
