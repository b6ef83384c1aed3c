import Verif.Maybe.Model

/-!
# Nullable type: property C65
-/
namespace Gel.Maybe

/-- The user cannot tell two values apart. -/
def Same (m m' : Maybe α) : Prop := isJust m = isJust m' ∧ ∀ d, withDefault m d = withDefault m' d

/-- The mathematical value. -/
def val (m : Maybe α) : Option α := if isJust m then some m.just else .none

/-- **C65.** Two values with the same mathematical value cannot be told apart, and conversely if the type has at least two
values (or there is nothing to be told). -/
theorem C65_observations (m m' : Maybe α) : Same m m' ↔ val m = val m' := by
  constructor
  · rintro ⟨h1, h2⟩
    unfold val
    by_cases hm : isJust m = true
    · have hm' : isJust m' = true := by rw [← h1]; exact hm
      rw [if_pos hm, if_pos hm']
      have := h2 m.just
      rw [withDefault, withDefault, if_pos hm, if_pos hm'] at this
      rw [this]
    · have hm' : ¬ isJust m' = true := by rw [← h1]; exact hm
      rw [if_neg hm, if_neg hm']
  · intro h
    unfold val at h
    unfold Same withDefault
    by_cases hm : isJust m = true <;> by_cases hm' : isJust m' = true <;> simp_all

/-- **C65.** The operations are those of `Option`: this gives the functor and monad laws, spelled out in `C65_laws`. -/
theorem C65_option (m : Maybe α) (f : α → α) (g : α → Maybe α) (a d zero : α) :
    val (ret a) = some a ∧ val (none zero) = Option.none ∧ val (map m f) = (val m).map f ∧
    val (bind m g) = (val m).bind (fun x => val (g x)) ∧ withDefault m d = (val m).getD d ∧ isJust m = (val m).isSome := by
  refine ⟨rfl, rfl, ?_, ?_, ?_, ?_⟩
  · unfold map
    by_cases h : isJust m = true
    · have e : isJust (ret (f m.just)) = true := rfl
      rw [if_pos h, val, val, if_pos e, if_pos h]; rfl
    · rw [if_neg h]; simp [val, h]
  · unfold bind
    by_cases h : isJust m = true
    · rw [if_pos h]; simp [val, h]
    · rw [if_neg h]; simp [val, h]
  · unfold withDefault
    by_cases h : isJust m = true <;> simp [val, h]
  · by_cases h : isJust m = true <;> simp [val, h]

/-- **C65.** The laws, up to what the user can observe. -/
theorem C65_laws (m : Maybe α) (f g : α → α) (h k : α → Maybe α) (a d : α) :
    Same (map m id) m ∧ Same (map m (g ∘ f)) (map (map m f) g) ∧
    Same (bind (ret a) h) (h a) ∧ Same (bind m ret) m ∧ Same (bind (bind m h) k) (bind m fun x => bind (h x) k) ∧
    (isJust m = true → withDefault m d = m.just) ∧ (isJust m = false → withDefault m d = d) := by
  refine ⟨?_, ?_, ?_, ?_, ?_, ?_, ?_⟩
  · rw [C65_observations, (C65_option m id h a d a).2.2.1]; simp
  · rw [C65_observations, (C65_option m _ h a d a).2.2.1, (C65_option (map m f) g h a d a).2.2.1,
      (C65_option m f h a d a).2.2.1, Option.map_map]
  · exact ⟨rfl, fun _ => rfl⟩
  · rw [C65_observations, (C65_option m f ret a d a).2.2.2.1]
    cases val m <;> rfl
  · rw [C65_observations, (C65_option (bind m h) f k a d a).2.2.2.1, (C65_option m f h a d a).2.2.2.1,
      (C65_option m f (fun x => bind (h x) k) a d a).2.2.2.1, Option.bind_assoc]
    congr 1
    funext x
    exact ((C65_option (h x) f k a d a).2.2.2.1).symm
  · intro hj; rw [withDefault, if_pos hj]
  · intro hj; rw [withDefault, if_neg (by rw [hj]; decide)]

example : withDefault (bind (map (ret 3) (· + 1)) fun x => if x < 4 then ret x else none 0) (7 : Int) = 7 ∧
    withDefault (bind (map (ret 2) (· + 1)) fun x => if x < 4 then ret x else none 0) (7 : Int) = 3 ∧
    isJust (⟨5, 2⟩ : Maybe Int) = false := by decide

end Gel.Maybe
