import Verif.Spec.Linter
/-
  The constants of the linter are those of the README.
-/
namespace Protoast.Readme

theorem mainStatusPath_eq : mainStatusPath = statusPath := rfl
theorem mainStatusName_eq : mainStatusName = statusName := rfl
theorem mainServices_eq : mainServices = services := rfl
theorem mainExemption_eq : mainExemption = exemption := rfl
theorem mainStatusField_eq : mainStatusField = statusField := rfl

end Protoast.Readme
