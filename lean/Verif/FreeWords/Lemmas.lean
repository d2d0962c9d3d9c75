import Verif.FreeWords.Spec
import Verif.MapFree.More
/-
  A single word of the values: the executions of Verif.FreeWords are executions of Verif.MapFree when only word `j` of every value is looked at.
-/
set_option linter.unusedVariables false
set_option linter.unusedSimpArgs false

namespace Verif.FreeWords

open Verif.ShmPool Verif.ShmMap Verif.MapSys Verif.MapTorn
open Verif.MapFree (FAct FEvent FSys callsOf retsOf completed inProgress)
open Verif.MapWords (target source)

variable {W : Type} {n : Nat} {N H : Nat}

def pOp (j : Fin n) : Op (Val n W) → Op W
  | .read k => .read k
  | .insert k v => .insert k (v j)
  | .erase k => .erase k
  | .clear => .clear
  | .size => .size

def pRet (j : Fin n) : Ret (Val n W) → Ret W
  | .val v => .val (v.map (· j))
  | .bool b => .bool b
  | .num n => .num n
  | .unit => .unit

def pUn (j : Fin n) : Unprot (Val n W) → Unprot W
  | .read k => .read k
  | .insert k v => .insert k (v j)
  | .erase k => .erase k

def pEv (j : Fin n) : FEvent (Val n W) → FEvent W
  | .call i u => .call i (pUn j u)
  | .ret i r => .ret i (pRet j r)

def pMap (j : Fin n) (m : Map (Val n W)) : Map W := ⟨m.pool, m.key, fun e => m.val e j, m.next, m.hash⟩

def pWr (j : Fin n) : Wr (Val n W) → Wr W
  | .pool w => .pool w
  | .key i k => .key i k
  | .val i v => .val i (v j)
  | .next i n => .next i n
  | .hash b n => .hash b n

def pPc (j : Fin n) : Pc (Val n W) → Pc W
  | .idle => .idle
  | .rdHash k => .rdHash k
  | .rdLoop k e => .rdLoop k e
  | .rdVal e => .rdVal e
  | .rdNext k e => .rdNext k e
  | .inHash k v => .inHash k (v j)
  | .inKey k v e => .inKey k (v j) e
  | .inVal v e => .inVal (v j) e
  | .inNext k v e => .inNext k (v j) e
  | .alTop k v p => .alTop k (v j) p
  | .alCur k v p => .alCur k (v j) p
  | .alCurW k v p c => .alCurW k (v j) p c
  | .alData k v p t => .alData k (v j) p t
  | .alTopW k v p t x => .alTopW k (v j) p t x
  | .new k v p x => .new k (v j) p x
  | .nKey k v p x => .nKey k (v j) p x
  | .nVal v p x => .nVal (v j) p x
  | .nNext p x => .nNext p x
  | .nLink p x => .nLink p x
  | .erHash k => .erHash k
  | .erKey k b e => .erKey k b e
  | .erHead b e => .erHead b e
  | .erHeadW b e n => .erHeadW b e n
  | .erNext k e => .erNext k e
  | .erLoop k p e => .erLoop k p e
  | .erMid p e => .erMid p e
  | .erMidW p e n => .erMidW p e n
  | .erClr e => .erClr e
  | .frTop e => .frTop e
  | .frTopW e t => .frTopW e t
  | .frData e t => .frData e t
  | .clCur => .clCur
  | .clTop => .clTop
  | .clHash i => .clHash i
  | .szCur => .szCur
  | .szTop c => .szTop c
  | .ret r => .ret (pRet j r)
  | .ub => .ub

theorem pPc_start (j : Fin n) (u : Unprot (Val n W)) : pPc j (start u.op) = start (pUn j u).op := by cases u <;> rfl

theorem pUn_op (j : Fin n) (u : Unprot (Val n W)) : (pUn j u).op = pOp j u.op := by cases u <;> rfl

theorem pPc_step (j : Fin n) (m : Map (Val n W)) (pc : Pc (Val n W)) : (pPc j pc).step N H (pMap j m) = ((pc.step N H m).1.map (pWr j), pPc j (pc.step N H m).2) := by
  cases pc with
  | nLink p x => cases p <;> rfl
  | clHash i => simp only [pPc, Pc.step]; split <;> rfl
  | _ => first | rfl | (simp only [Pc.step, apply_ite (pPc j), Option.map_none, Option.map_some]; simp only [pPc, Pc.step, pMap, pRet, Option.map_none, Option.map_some] <;> rfl)

theorem pWr_ok {j : Fin n} {m m' : Map (Val n W)} {w : Wr (Val n W)} (h : w.apply N H m = .ok m') : (pWr j w).apply N H (pMap j m) = .ok (pMap j m') := by
  cases w with
  | pool w =>
    simp only [Wr.apply] at h
    cases hw : w.apply N m.pool with
    | ok p => rw [hw, Res.ok_bind] at h; cases h; simp only [pWr, Wr.apply, pMap, hw, Res.ok_bind]
    | ub => rw [hw] at h; cases h
  | val i v =>
    simp only [Wr.apply] at h
    split at h
    · rename_i hi
      cases h
      simp only [pWr, Wr.apply, if_pos hi, pMap]
      congr 2
      funext e
      simp only [put]
      split <;> rfl
    · cases h
  | key i k => simp only [Wr.apply] at h; split at h <;> cases h; rename_i hi; simp only [pWr, Wr.apply, if_pos hi, pMap]
  | next i k => simp only [Wr.apply] at h; split at h <;> cases h; rename_i hi; simp only [pWr, Wr.apply, if_pos hi, pMap]
  | hash i k => simp only [Wr.apply] at h; split at h <;> cases h; rename_i hi; simp only [pWr, Wr.apply, if_pos hi, pMap]

theorem pWr_ub {j : Fin n} {m : Map (Val n W)} {w : Wr (Val n W)} (h : w.apply N H m = .ub) : (pWr j w).apply N H (pMap j m) = .ub := by
  cases w with
  | pool w =>
    simp only [Wr.apply] at h
    cases hw : w.apply N m.pool with
    | ok p => rw [hw, Res.ok_bind] at h; cases h
    | ub => simp only [pWr, Wr.apply, pMap, hw, Res.ub_bind]
  | val i k => simp only [Wr.apply] at h; split at h <;> cases h; rename_i hi; simp only [pWr, Wr.apply, if_neg hi]
  | key i k => simp only [Wr.apply] at h; split at h <;> cases h; rename_i hi; simp only [pWr, Wr.apply, if_neg hi]
  | next i k => simp only [Wr.apply] at h; split at h <;> cases h; rename_i hi; simp only [pWr, Wr.apply, if_neg hi]
  | hash i k => simp only [Wr.apply] at h; split at h <;> cases h; rename_i hi; simp only [pWr, Wr.apply, if_neg hi]

/-- The place in the execution of word `j`, which is the `p`-th to be copied. -/
def pCur (j : Fin n) (p : Nat) (c : Cur n W) : Pc W :=
  match c.pc with
  | .inVal v e => if c.g ≤ p then .inVal (v j) e else .ret (.bool true)
  | .nVal v l x => if c.g ≤ p then .nVal (v j) l x else .nNext l x
  | .rdVal e => if c.g ≤ p then .rdVal e else .ret (.val (some (c.buf j)))
  | pc => pPc j pc

/-- How many steps of the call are still to come that are none of the execution of word `j`. -/
def extra (L p : Nat) (c : Cur n W) : Nat :=
  match c.pc with
  | .inVal _ _ | .nVal _ _ _ | .rdVal _ => if c.g ≤ p then L - c.g else L + 1 - c.g
  | .nNext _ _ | .nLink _ _ | .ret _ | .ub => 0
  | _ => L

def extraOf (L p : Nat) (s : FSysW n W) (i : Nat) : Nat := match s.pc i with | none => 0 | some c => extra L p c

/-- At most all words have been copied, and a value is only stored into a node of the segment. -/
def CurOk (N L : Nat) (c : Cur n W) : Prop := c.g ≤ L ∧ (c.g = 0 ∨ match c.pc with | .inVal _ e | .nVal _ _ e => e < N | _ => True)

structure Rel (N L : Nat) (j : Fin n) (p : Nat) (s : FSysW n W) (t : FSys W) : Prop where
  mem : t.mem = pMap j s.mem
  pc : ∀ i, t.pc i = (s.pc i).map (pCur j p)
  ok : ∀ i c, s.pc i = some c → CurOk N L c

theorem set_self (s : FSysW n W) (i : Nat) (t : Option (Cur n W)) : (s.set i t).pc i = t := by simp [FSysW.set]

theorem set_other (s : FSysW n W) {i j : Nat} (t : Option (Cur n W)) (h : j ≠ i) : (s.set i t).pc j = s.pc j := by simp [FSysW.set, h]

theorem rel_set {L : Nat} {j : Fin n} {p : Nat} {s : FSysW n W} {t : FSys W} (R : Rel N L j p s t) (m : Map (Val n W)) (i : Nat) (q : Option (Cur n W)) (hq : ∀ c, q = some c → CurOk N L c)
    {t' : FSys W} (hm : t'.mem = pMap j m) (hi : t'.pc i = q.map (pCur j p)) (ho : ∀ i', i' ≠ i → t'.pc i' = t.pc i') : Rel N L j p (({ s with mem := m } : FSysW n W).set i q) t' := by
  refine ⟨hm, ?_, ?_⟩
  · intro i'
    by_cases e : i' = i
    · subst e; rw [set_self]; exact hi
    · rw [set_other _ _ e, ho i' e]; exact R.pc i'
  · intro i' c hc
    by_cases e : i' = i
    · subst e; rw [set_self] at hc; exact hq c hc
    · rw [set_other _ _ e] at hc; exact R.ok i' c hc

/-- At the places where no value is copied. -/
theorem pCur_plain {j : Fin n} {p : Nat} {c : Cur n W} (h1 : target c.pc = none) (h2 : source c.pc = none) : pCur j p c = pPc j c.pc := by
  unfold pCur
  split
  · rename_i e; rw [e] at h1; cases h1
  · rename_i e; rw [e] at h1; cases h1
  · rename_i e; rw [e] at h2; cases h2
  · rfl

/-- At the beginning of a copy. -/
theorem pCur_zero (j : Fin n) (p : Nat) (pc : Pc (Val n W)) (b : Val n W) : pCur j p ⟨pc, 0, b⟩ = pPc j pc := by
  unfold pCur
  split <;> simp_all [pPc]

theorem extra_plain {L p : Nat} {c : Cur n W} {m : Map (Val n W)} (h1 : target c.pc = none) (h2 : source c.pc = none) (h3 : ∀ r, c.pc ≠ .ret r) :
    extra L p ⟨(c.pc.step N H m).2, 0, c.buf⟩ ≤ extra L p c := by
  obtain ⟨pc, g, b⟩ := c
  cases pc with
  | nLink q x => cases q <;> simp [extra, Pc.step]
  | inVal v e => cases h1
  | nVal v l x => cases h1
  | rdVal e => cases h2
  | ret r => exact absurd rfl (h3 r)
  | _ => simp only [extra, Pc.step] <;> (repeat' split) <;> simp_all <;> omega

end Verif.FreeWords
