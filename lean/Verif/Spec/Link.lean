import Verif.Spec.Wire
import Verif.Spec.Bus
import Verif.Spec.Read
import Verif.Model.Link
/-!
# Specification of the link plugin
-/
namespace LP.Link

/-- The waiting parts a ZMQ message consists of: every part but the last announces another one. -/
def parts : List (List UInt8) → List Part
  | [] => []
  | [d] => [⟨d, false⟩]
  | d :: e :: ds => ⟨d, true⟩ :: parts (e :: ds)

/-- The sender path names `n` first. -/
def FromLink (n sender : Str) : Prop := ∃ s, sender = n ++ [slash] ++ s

/-- A message as its reader sees it: sender, topic, document. -/
structure Content where
  sender : Str
  topic : Str
  doc : Tree

/-- What a ZMQ message with these parts brings: nothing if there is no payload behind the first part, otherwise the message
the payload is read as. A payload that cannot be read is not covered. -/
inductive Brings (c : Codec) : List (List UInt8) → Option Content → Prop where
  | nothing {topic : List UInt8} {ps : List (List UInt8)} : ps.flatten = [] → Brings c (topic :: ps) none
  | message {topic : List UInt8} {ps : List (List UInt8)} {s t : Str} {d : FB} {doc : Tree} : ps.flatten ≠ [] →
      c.dec ps.flatten = some ⟨some s, some t, some d⟩ → Means d doc → Brings c (topic :: ps) (some ⟨s, t, doc⟩)

/-- The payload exists but cannot be read. -/
inductive Unreadable (c : Codec) : List (List UInt8) → Prop where
  | bytes {topic : List UInt8} {ps : List (List UInt8)} : ps.flatten ≠ [] → c.dec ps.flatten = none → Unreadable c (topic :: ps)
  | sender {topic : List UInt8} {ps : List (List UInt8)} {f : FBM} : ps.flatten ≠ [] → c.dec ps.flatten = some f → f.sender = none →
      Unreadable c (topic :: ps)
  | topic {topic : List UInt8} {ps : List (List UInt8)} {f : FBM} : ps.flatten ≠ [] → c.dec ps.flatten = some f → f.topic = none →
      Unreadable c (topic :: ps)
  | datagram {topic : List UInt8} {ps : List (List UInt8)} {f : FBM} : ps.flatten ≠ [] → c.dec ps.flatten = some f →
      f.datagram = none → Unreadable c (topic :: ps)
  | broken {topic : List UInt8} {ps : List (List UInt8)} {f : FBM} {d : FB} : ps.flatten ≠ [] → c.dec ps.flatten = some f →
      f.datagram = some d → Broken d → Unreadable c (topic :: ps)

/-- The message object carries this content, its sender path extended by `ident`. -/
def Carries (h : Heap) (ident : Str) (p : Msg) (x : Content) : Prop :=
  p.sender = ident ++ [slash] ++ x.sender ∧ p.topic = x.topic ∧ Rep h (fun a => a < h.next) x.doc p.dg

/-- The message objects carry these contents, in order. -/
def AllCarry (h : Heap) (ident : Str) : List Msg → List Content → Prop
  | [], [] => True
  | p :: ps, x :: xs => Carries h ident p x ∧ AllCarry h ident ps xs
  | _, _ => False

/-- Every ZMQ message of a sequence brings the corresponding thing. -/
inductive AllBring (c : Codec) : List (List (List UInt8)) → List (Option Content) → Prop where
  | nil : AllBring c [] []
  | cons {q : List (List UInt8)} {qs : List (List (List UInt8))} {x : Option Content} {xs : List (Option Content)} :
      Brings c q x → AllBring c qs xs → AllBring c (q :: qs) (x :: xs)

/-- Taking turns: one of the first, one of the second, and so on; when one has run out, the other goes on alone. -/
def turns {α : Type} : List α → List α → List α
  | [], ys => ys
  | x :: xs, [] => x :: xs
  | x :: xs, y :: ys => x :: y :: turns xs ys

/-- The publishing socket of a role is open. -/
def Enabled (l : St) : Role → Bool
  | .server => l.serverPub
  | .client => l.clientPub

/-- The setting a configuration document has at a path, or the default. -/
def boolAt (t : Tree) (ks : List Str) (dflt : Bool) : Bool :=
  match t.walk ks with
  | some (.value (.bool b)) => b
  | _ => dflt
/-- As `boolAt`, for numbers. -/
def intAt (t : Tree) (ks : List Str) (dflt : Int32) : Int32 :=
  match t.walk ks with
  | some (.value (.int i)) => i
  | _ => dflt
/-- As `boolAt`, for texts. -/
def strAt (t : Tree) (ks : List Str) (dflt : Str) : Str :=
  match t.walk ks with
  | some (.value (.str s)) => s
  | _ => dflt

/-- The byte arrays that were there are untouched, and none made since is left. -/
def Clean (a b : RawBytes.Mem) : Prop :=
  a.next ≤ b.next ∧ (∀ q, q < a.next → b.block q = a.block q) ∧ ∀ q, a.next ≤ q → q < b.next → b.block q = .freed

/-- Nothing that was there is touched. -/
def Untouched (h h' : Heap) : Prop := h.next ≤ h'.next ∧ ∀ y, y < h.next → h'.node y = h.node y

/-- What waits on a socket. -/
def stream (qs : List (List (List UInt8))) : List Part := qs.flatMap parts

end LP.Link
