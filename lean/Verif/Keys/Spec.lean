/-
  What "different key files" means.
-/
import Verif.Keys.Model

namespace Verif.Keys.Spec

/-- The handle of a call. -/
def handle : QueueApi.Op → Nat
  | .connect h _ _ _ _ | .disconnect h | .flush h | .unflush h | .put h _ | .get h _ | .count h | .setReg h _ _ | .getReg h _ => h

def mhandle {V : Type} : MapApi.Call V → Nat
  | .connect h _ _ | .disconnect h | .isConnected h | .capacity h | .op h _ | .insertMany h _ | .eraseMany h _ | .nonEmpty h => h

/-- The file of a connect. -/
def file : QueueApi.Op → Option Nat
  | .connect _ f _ _ _ => some f
  | _ => none

def mfile {V : Type} : MapApi.Call V → Option Nat
  | .connect _ f _ => some f
  | _ => none

/-- Two files whose numbers agree in the low 16 bits, on devices whose numbers agree in the low 8 bits. -/
def Clash (a b : Stat) : Prop := a.ino % 65536 = b.ino % 65536 ∧ a.dev % 256 = b.dev % 256

/-- The file `f` is named `g`. -/
def rename (f g : Nat) : QueueApi.Op → QueueApi.Op
  | .connect h x bs max env => .connect h (if x = f then g else x) bs max env
  | op => op
def renameM {V : Type} (f g : Nat) : MapApi.Call V → MapApi.Call V
  | .connect h x env => .connect h (if x = f then g else x) env
  | c => c

/-- The replies of the calls for which `p` holds. -/
def repliesOf {α β : Type} (p : α → Bool) : List α → List β → List β
  | a :: as, r :: rs => if p a then r :: repliesOf p as rs else repliesOf p as rs
  | _, _ => []

end Verif.Keys.Spec
