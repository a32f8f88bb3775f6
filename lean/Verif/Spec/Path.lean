import Verif.Model.Str
/-!
# What C functions see of a string
-/
namespace LP

/-- The part of a string before its first NUL byte. -/
def untilNul : Str → Str
  | [] => []
  | c :: s => if c = 0 then [] else c :: untilNul s

theorem untilNul_plain : ∀ {s : Str}, (0 : UInt8) ∉ s → untilNul s = s
  | [], _ => rfl
  | c :: s, h => by
    simp only [List.mem_cons, not_or] at h
    rw [untilNul, if_neg (fun e => h.1 e.symm), untilNul_plain h.2]

theorem untilNul_cut : ∀ {s : Str} (z : Str), (0 : UInt8) ∉ s → untilNul (s ++ 0 :: z) = s
  | [], _, _ => rfl
  | c :: s, z, h => by
    simp only [List.mem_cons, not_or] at h
    rw [List.cons_append, untilNul, if_neg (fun e => h.1 e.symm), untilNul_cut z h.2]

end LP
