import Verif.Proofs.Filter
import Verif.Proofs.Bits

/-! IDs with prescribed bits. -/
namespace Gosstrak

theorem length_bound (l : List Str) : ∃ n, ∀ m ∈ l, m.length ≤ n := by
  induction l with
  | nil => exact ⟨0, by simp⟩
  | cons a l ih =>
    obtain ⟨n, hn⟩ := ih
    refine ⟨a.length + n, ?_⟩
    intro m hm
    rcases List.mem_cons.mp hm with rfl | h
    · omega
    · have := hn m h; omega

/-- every string of whole bytes is the string of bits of an ID -/
theorem exists_id {s : Str} (n : Nat) (hn : 0 < n) (hs : s.length = 8 * n) (hb : IsBitStr s) :
    ∃ id : List Byte, id.length = n ∧ bitsOf id = s := by
  obtain ⟨bs, -, hl, hj⟩ := parseBin_bits hn hs hb
  refine ⟨bs, hl, ?_⟩
  apply List.ext_getElem?
  intro j
  rw [bitsOf_getElem?]
  by_cases h : j < s.length
  · rw [if_pos (by omega), hj]
    have := List.getElem?_eq_getElem h
    rw [this]
    rcases hb s[j] (List.getElem_mem h) with e | e <;> rw [e] <;> simp
  · rw [if_neg (by omega), List.getElem?_eq_none (by omega)]

/-- every bit string starts an ID, which may be as long as one likes -/
theorem exists_id_from {g : Str} (hg : IsBitStr g) (n : Nat) :
    ∃ id : List Byte, id ≠ [] ∧ g <+: bitsOf id ∧ n ≤ 8 * id.length := by
  obtain ⟨m, hm⟩ : ∃ m, m = 8 * (g.length + n + 1) - g.length := ⟨_, rfl⟩
  obtain ⟨id, h1, h2⟩ := exists_id (s := g ++ List.replicate m '0') (g.length + n + 1) (by omega)
    (by simp; omega) (by
      intro c hc
      rcases List.mem_append.mp hc with h | h
      · exact hg c h
      · rw [List.mem_replicate] at h; exact Or.inl h.2)
  exact ⟨id, by rintro rfl; simp at h1, by rw [h2]; exact List.prefix_append _ _, by omega⟩

end Gosstrak
