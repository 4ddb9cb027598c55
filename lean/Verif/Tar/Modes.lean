import Verif.Tar.Model

/-
C110: the modes of members of TAR archives.
-/

namespace Rep.Tar

theorem modes_bits : ∀ a b d e f i j k l m n p : Bool,
    getModes (modesAsString '-' (word ⟨a, b, d, e⟩ ⟨f, i, j, k⟩ ⟨l, m, n, p⟩)) = word ⟨a, b, d, e⟩ ⟨f, i, j, k⟩ ⟨l, m, n, p⟩ := by
  decide +kernel

/-- The modes of a member are those whose text, as `file-modes-as-string` writes it, tar prints. -/
theorem C110_modes (c : Char) (o g t : Triple) : getModes (modesAsString c (word o g t)) = word o g t := by
  have h : getModes (modesAsString c (word o g t)) = getModes (modesAsString '-' (word o g t)) := rfl
  rw [h]
  exact modes_bits o.r o.w o.x o.s g.r g.w g.x g.s t.r t.w t.x t.s

example : modesAsString '-' 0o4751 = "-rwsr-x--x".toList ∧ getModes "-rwsr-x--x".toList = 0o4751 := by decide

end Rep.Tar
