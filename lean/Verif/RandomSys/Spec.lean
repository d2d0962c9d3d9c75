/-
  What a user expects of coda_random_init when several threads call it.  Only observations are mentioned.
-/
import Verif.RandomSys.Model

namespace Verif.RandomSys

/-- The numbers drawn, by whichever threads, in order. -/
def draws : List Obs → List Nat
  | [] => []
  | .draw _ x :: tr => x :: draws tr
  | _ :: tr => draws tr

/-- The numbers drawn after the first call that returned 0. -/
def after : List Obs → List Nat
  | [] => []
  | .ret _ 0 :: tr => draws tr
  | _ :: tr => after tr

/-- Some call has returned 0. -/
def Done (tr : List Obs) : Prop := ∃ t, Obs.ret t 0 ∈ tr

/-- Successive numbers of one stream. -/
def Section (gen : UInt32 → Nat → Nat) (xs : List Nat) : Prop := ∃ v n, xs = (List.range xs.length).map fun i => gen v (n + i)

/-- A call brings thread `t` in, its return brings it out. -/
def enters (t : Nat) (b : Bool) : Obs → Bool
  | .call u => if u = t then true else b
  | .ret u _ => if u = t then false else b
  | _ => b

/-- Thread `t` is inside of a call after these observations. -/
def inCall (t : Nat) (tr : List Obs) : Bool := tr.foldl (enters t) false

/-- No call begins while another one is going on, until one has returned 0. (So it is if the program calls it once before it makes threads, and if it calls it under a mutex.) -/
def Tidy (tr : List Obs) : Prop := ∀ pre t post, tr = pre ++ .call t :: post → Done pre ∨ ∀ u, inCall u pre = false

end Verif.RandomSys
