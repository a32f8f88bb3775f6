import Verif.Model.Fs
import Verif.Model.FsWin
import Verif.Model.Heap
import Verif.Model.Message
/-!
# `substr(pos)` never throws

The model writes `drop` for `std::string::substr(pos)`, which would hide the `std::out_of_range` of a position behind the
end. These lemmas show, for each such call of the code, that there is nothing to hide.
-/
namespace LP

theorem Str.rfind_lt {c : UInt8} : ∀ {s : Str} {i : Nat}, s.rfind c = some i → i < s.length
  | [], i, h => by simp [Str.rfind] at h
  | x :: s, i, h => by
    simp only [Str.rfind] at h
    cases hr : Str.rfind c s with
    | some j =>
      have := Str.rfind_lt hr
      simp only [hr, Option.some.injEq] at h
      simp only [List.length_cons]; omega
    | none =>
      simp only [hr] at h
      by_cases hx : x = c
      · simp only [hx, if_true, Option.some.injEq] at h
        simp only [List.length_cons]; omega
      · simp [hx] at h

/-- The calls in Filesystem.cpp:199, 234 (both platforms): the position is one behind a character that was found. -/
theorem Str.substrFrom_found {c : UInt8} {s : Str} {i : Nat} (h : s.rfind c = some i) :
    s.substrFrom (i + 1) = some (s.drop (i + 1)) := by
  have := Str.rfind_lt h
  simp only [Str.substrFrom, if_pos (show i + 1 ≤ s.length by omega)]

/-- The call in RawDatagram.h:223: it is guarded by a comparison with the length (so is Filesystem.cpp:199). -/
theorem Str.substrFrom_rest {s : Str} {i : Nat} (h : s.length > i + 1) : s.substrFrom (i + 1) = some (s.drop (i + 1)) := by
  simp only [Str.substrFrom, if_pos (show i + 1 ≤ s.length by omega)]

/-- The call in Message.cpp:68: it is guarded by a comparison of the first `n.length + 1` bytes. -/
theorem Str.substrFrom_sender {s n : Str} (h : s.take (n.length + 1) = n ++ bs "/") :
    s.substrFrom (n.length + 1) = some (s.drop (n.length + 1)) := by
  have := congrArg List.length h
  have e : (bs "/").length = 1 := rfl
  simp only [List.length_take, List.length_append, e] at this
  simp only [Str.substrFrom, if_pos (show n.length + 1 ≤ s.length by omega)]

example : (bs "a/b.c").rfind 47 = some 1 ∧ (bs "Link0/x").take 6 = bs "Link0" ++ bs "/" := by decide

end LP
