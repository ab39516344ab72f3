import Verif.Model.AddressFiles

/-!
# Address objects kept while the chain grows

A chain that is being written is read at the same time through `GetAsConcreteReadableChain` (concreteappendablechain.go:53-81), which shares
the files of the chain. Clients keep address objects (chainstorage/address.go) and call them between the outputs.

Calls are taken one after the other; the chain has no locks, so calls at the same time are out of scope.
-/

namespace Verif.AddressFiles

open Verif.MapStore (Path Cfg)

/-- The files of the chain, the height of the next output, and the address objects of the clients. -/
structure Sess where
  files : Files
  next : Int
  objs : Nat → Addr

/-- An output is stored, or a client calls its object. -/
inductive Step where
  | pay (x : Bytes)
  | ask (i : Nat) (k : Call)

/-- The object `i` after a call. -/
def Sess.set (s : Sess) (i : Nat) (a : Addr) (f : Files) : Sess := { s with files := f, objs := fun j => if j = i then a else s.objs j }

/-- One step; `none` = an error of the chain, a panic or a hang. The readable chain has the same files as the written one, so what a call
leaves in the array store (a flushed cache) is there for the next output. -/
def step (c : Cfg) (fuel : Nat) (s : Sess) : Step → Option (Sess × List Out)
  | .pay x =>
    match touch c fuel s.files x s.next with
    | .error _ => none
    | .ok f => some ({ s with files := f, next := s.next + 1 }, [])
  | .ask i k =>
    match call c (live s.files) (s.objs i) k with
    | none => none
    | some (ch, a, o) =>
      match ch.more with
      | .closed _ => none
      | .live m => some (s.set i a { s.files with more := m }, [o])

/-- What the clients see. -/
def session (c : Cfg) (fuel : Nat) : Sess → List Step → Option (List Out)
  | _, [] => some []
  | s, x :: xs =>
    match step c fuel s x with
    | none => none
    | some (s', o) => (session c fuel s' xs).map (o ++ ·)

end Verif.AddressFiles
