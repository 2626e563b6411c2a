import Verif.Methods.Main

/-!
# C100: what is left out, and a history that is not trivial
-/

namespace Verif.Methods

/-- Looking a builder up through an override binds it, in the environment that is overridden, to the
override: later calls through the environment act with the variables of the override. -/
theorem C100_lookup_through_override_rebinds :
    observe [.newEnv, .setBuilder 0 "Object" 7, .override 0] 0 "Object" = .call true 7 0 ∧
    observe [.newEnv, .setBuilder 0 "Object" 7, .override 0, .look 1 "Object"] 0 "Object" = .call true 7 1 := by
  decide +kernel

/-- `AddMethod` on an override adds the method to the environment that is overridden, where it acts on the
override. -/
theorem C100_method_of_override_leaks :
    observe [.newEnv, .override 0, .addMethod 1 7 "M"] 0 "M" = .call false 7 1 := by
  decide +kernel

/-- One function added under two names, one of which becomes a builder: in a clone, the other one acts on the
original. -/
theorem C100_function_with_two_names :
    observe [.newEnv, .addMethod 0 7 "A", .addMethod 0 7 "B", .setBuilder 0 "A" 8, .clone 0] 1 "B" =
      .call false 7 0 := by
  decide +kernel

/-- A value given to the name of a builder is lost in a clone. -/
theorem C100_value_over_builder_lost :
    observe [.newEnv, .setBuilder 0 "B" 7, .setPlain 0 "B" 3, .clone 0] 0 "B" = .plain 3 ∧
    observe [.newEnv, .setBuilder 0 "B" 7, .setPlain 0 "B" 3, .clone 0] 1 "B" = .call true 7 1 := by
  decide +kernel

/-- A method added under the name of a builder goes when the builder is deleted, and then the environment
cannot be cloned. -/
theorem C100_method_deleted_with_builder :
    observe [.newEnv, .setBuilder 0 "B" 7, .addMethod 0 8 "B"] 0 "B" = .call false 8 0 ∧
    observe [.newEnv, .setBuilder 0 "B" 7, .addMethod 0 8 "B", .delBuilder 0 "B"] 0 "B" = .missing ∧
    (clone (run [.newEnv, .setBuilder 0 "B" 7, .addMethod 0 8 "B", .delBuilder 0 "B"]) 0).next = 1 := by
  decide +kernel

/-- The same when a method was replaced by another one, and that one by a builder: after the builder is
deleted, the environment cannot be cloned. -/
theorem C100_replaced_method_stops_clone :
    (clone (run [.newEnv, .addMethod 0 8 "B", .addMethod 0 9 "B", .setBuilder 0 "B" 7, .delBuilder 0 "B"]) 0).next
      = 1 := by
  decide +kernel

/-- A method that hides a builder, and was called through an override, is a builder again in a clone. -/
theorem C100_hidden_builder_returns :
    observe [.newEnv, .setBuilder 0 "B" 7, .addMethod 0 8 "B", .override 0, .look 1 "B", .clone 0] 2 "B" =
      .call true 7 2 := by
  decide +kernel

/-! ## A fair history -/

/-- Builders, methods, a clone of a clone, an override of an override, calls through them. -/
def sample : List Op :=
  [.newEnv, .setBuilder 0 "Object" 1, .addMethod 0 2 "Size", .clone 0, .addMethod 1 3 "Object",
   .setBuilder 0 "Size" 4, .override 1, .override 2, .look 3 "Size", .clone 1, .setPlain 1 "x" 5,
   .delBuilder 0 "Object"]

def sampleTables : Tables := sample.foldl Tables.step .init

theorem FairHistory.next {ops : List Op} {t : Tables} (h : FairHistory ops t) (o : Op) (hf : Fair t o) :
    FairHistory (ops ++ [o]) (t.step o) := .snoc ops t o h hf

theorem sample_fair : FairHistory sample sampleTables := by
  have h1 := FairHistory.nil.next .newEnv trivial
  have h2 := h1.next (.setBuilder 0 "Object" 1) ⟨rfl, by simp [Tables.step, Tables.init, upd, updEnv]⟩
  have h3 := h2.next (.addMethod 0 2 "Size") rfl
  have h4 := h3.next (.clone 0) ⟨rfl, by
    intro n f
    simp only [Tables.step, Tables.init, upd, updEnv]
    by_cases h : n = "Object" <;> by_cases h' : n = "Size" <;> simp_all⟩
  have h5 := h4.next (.addMethod 1 3 "Object") rfl
  have h6 := h5.next (.setBuilder 0 "Size" 4) ⟨rfl, by
    intro f
    simp only [Tables.step, Tables.init, upd, updEnv]
    intro hf n hn
    by_cases h : n = "Object" <;> simp_all⟩
  have h7 := h6.next (.override 1) (by simp [Fair, Tables.step, Tables.init])
  have h8 := h7.next (.override 2) (by simp [Fair, Tables.step, Tables.init])
  have h9 := h8.next (.look 3 "Size") (by simp [Fair, Tables.step, Tables.init])
  have h10 := h9.next (.clone 1) ⟨by decide +kernel, by
    intro n f hm hl
    by_cases h : n = "Size"
    · subst h; decide +kernel
    · exfalso
      simp [Tables.step, Tables.init, upd, updEnv, h] at hl⟩
  have h11 := h10.next (.setPlain 1 "x" 5) ⟨by decide +kernel, by decide +kernel⟩
  have h12 := h11.next (.delBuilder 0 "Object") ⟨by decide +kernel, ⟨1, by decide +kernel⟩, by decide +kernel⟩
  exact h12

/-- After it: a call through the override of the override acts on it, the clone of the clone has its own `Object`,
and so on. -/
example : observe sample 3 "Size" = .call false 2 3 ∧ observe sample 4 "Object" = .call false 3 4 ∧
    observe sample 0 "Size" = .call true 4 0 ∧ observe sample 0 "Object" = .missing ∧
    expected sampleTables 3 "Size" = .call false 2 3 ∧ sampleTables.looked 4 "Object" = false := by
  decide +kernel

end Verif.Methods
