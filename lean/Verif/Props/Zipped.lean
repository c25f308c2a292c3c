import Verif.Model.Zipped
/-! C115: a loop over two zipped vectors sees their pairs if they have the same length, and else reads beyond the end of the shorter one. -/
namespace Tachyon.Props

open Tachyon.Zipped

variable {α β : Type}

theorem zipped_loop (l : List α) (r : List β) : ∀ (fuel k : ℕ), k ≤ l.length → k ≤ r.length → min l.length r.length < k + fuel →
    loop l r fuel ⟨k, k⟩ = some (if l.length = r.length then some ((l.drop k).zip (r.drop k)) else none) := by
  intro fuel
  induction fuel with
  | zero => intro k h1 h2 h3; omega
  | succ fuel ih =>
    intro k h1 h2 h3
    rw [loop]
    by_cases he : k = l.length ∧ k = r.length
    · rw [if_pos (by simp [It.eq, finish, ← he.1, ← he.2]), if_pos (by omega), List.drop_of_length_le (by omega)]
      simp
    · rw [if_neg (by simpa [It.eq, finish] using he)]
      by_cases hl : k < l.length
      · by_cases hr : k < r.length
        · have hd : It.deref l r ⟨k, k⟩ = some (l[k], r[k]) := by simp [It.deref, hl, hr]
          rw [hd]
          simp only [It.next]
          have hz : (l.drop k).zip (r.drop k) = (l[k], r[k]) :: (l.drop (k + 1)).zip (r.drop (k + 1)) := by
            rw [List.drop_eq_getElem_cons hl, List.drop_eq_getElem_cons hr, List.zip_cons_cons]
          rw [ih (k + 1) (by omega) (by omega) (by omega), hz]
          by_cases hlr : l.length = r.length
          · rw [if_pos hlr, if_pos hlr]; rfl
          · rw [if_neg hlr, if_neg hlr]; rfl
        · have hd : It.deref l r ⟨k, k⟩ = none := by simp [It.deref, hr]
          rw [hd, if_neg (by omega)]
      · have hd : It.deref l r ⟨k, k⟩ = none := by simp [It.deref, hl]
        rw [hd, if_neg (by omega)]

/-- **C115 (zipped loops).** A loop over two vectors of the same length ends and sees their pairs in order; over vectors of different lengths it reads beyond
the end of the shorter one (after its last pair), rather than stopping there. -/
theorem C115_forEach (l : List α) (r : List β) (fuel : ℕ) (hf : min l.length r.length < fuel) :
    forEach fuel l r = some (if l.length = r.length then some (l.zip r) else none) := by
  rw [forEach, Zipped.begin, zipped_loop l r fuel 0 (by omega) (by omega) (by omega)]
  simp

/-- **C115 (lengths).** The difference of the end and the beginning is the length of the first vector; so it is the number of pairs only where the lengths agree
or the second is longer. -/
theorem C115_distance (l : List α) (r : List β) :
    (finish l r).sub Zipped.begin = l.length ∧ ((finish l r).sub Zipped.begin = (l.zip r).length ↔ l.length ≤ r.length) := by
  simp only [It.sub, finish, Zipped.begin, List.length_zip]
  omega

/-- Three pairs; and two vectors of different lengths. -/
example : forEach 4 [1, 2, 3] ['a', 'b', 'c'] = some (some [(1, 'a'), (2, 'b'), (3, 'c')]) ∧ forEach 4 [1, 2, 3] ['a', 'b'] = some none := by decide

end Tachyon.Props
