/-! What `std::map`, `std::set` and `std::sort` require of `operator<`, and `std::unordered_map` of `std::hash`. -/
namespace PNDL.Spec

/-- `lt` is a strict total order and `eq` is equality. -/
def MapKey {α : Type} (lt eq : α → α → Bool) : Prop :=
  (∀ a, lt a a = false) ∧
  (∀ a b c, lt a b = true → lt b c = true → lt a c = true) ∧
  (∀ a b, lt a b = true ∨ a = b ∨ lt b a = true) ∧
  (∀ a b, eq a b = true ↔ a = b)

end PNDL.Spec
