import Lean.Meta.Tactic.Simp.RegisterCommand

/-- Simp set which unfolds every operation of the model to operations on components. -/
register_simp_attr engabra
