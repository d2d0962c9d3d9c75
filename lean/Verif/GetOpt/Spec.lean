/-
  What a command line of a coda daemon means, said without the machinery of getopt.
-/
namespace Verif.GetOpt.Spec

abbrev Word := List UInt8

/-- The options with an argument and those without. -/
inductive Kind where
  | config
  | pid
  deriving DecidableEq

inductive Flag where
  | daemon
  | noDaemon
  deriving DecidableEq

/-- An option as it was given. -/
inductive Opt where
  | value (k : Kind) (v : Word)
  | flag (f : Flag)
  deriving DecidableEq

/-- -c, -p -/
def Kind.letter : Kind → UInt8
  | .config => 99
  | .pid => 112

/-- -d, -D -/
def Flag.letter : Flag → UInt8
  | .daemon => 100
  | .noDaemon => 68

/-- config, pid -/
def Kind.name : Kind → Word
  | .config => [99, 111, 110, 102, 105, 103]
  | .pid => [112, 105, 100]

/-- daemon, no-daemon -/
def Flag.name : Flag → Word
  | .daemon => [100, 97, 101, 109, 111, 110]
  | .noDaemon => [110, 111, 45, 100, 97, 101, 109, 111, 110]

/-- One thing on a command line. -/
inductive Item where
  /-- a word that is no option -/
  | operand (w : Word)
  /-- `-dD`: letters without arguments -/
  | letters (f : Flag) (fs : List Flag)
  /-- `-dcFILE`: letters, the last with its argument attached -/
  | attached (fs : List Flag) (k : Kind) (v : Word)
  /-- `-dc FILE`: letters, the last with its argument in the next word -/
  | separate (fs : List Flag) (k : Kind) (v : Word)
  /-- `--daemon`, or an abbreviation `n` -/
  | long (f : Flag) (n : Word)
  /-- `--config=FILE` -/
  | longEq (k : Kind) (n : Word) (v : Word)
  /-- `--config FILE` -/
  | longSep (k : Kind) (n : Word) (v : Word)
  deriving DecidableEq

/-- A word that is an operand wherever it stands: not beginning with '-', or only "-". -/
def plain (w : Word) : Prop := w = [45] ∨ w.head? ≠ some 45

/-- An abbreviation of a name: some of its first characters. -/
def Abbrev (n name : Word) : Prop := n ≠ [] ∧ n <+: name

def Item.valid : Item → Prop
  | .operand w => plain w
  | .letters _ _ => True
  | .attached _ _ v => v ≠ []
  | .separate _ _ _ => True
  | .long f n => Abbrev n f.name
  | .longEq k n _ => Abbrev n k.name
  | .longSep k n _ => Abbrev n k.name

/-- How it is written. -/
def Item.words : Item → List Word
  | .operand w => [w]
  | .letters f fs => [45 :: f.letter :: fs.map Flag.letter]
  | .attached fs k v => [45 :: (fs.map Flag.letter ++ k.letter :: v)]
  | .separate fs k v => [45 :: (fs.map Flag.letter ++ [k.letter]), v]
  | .long _ n => [45 :: 45 :: n]
  | .longEq _ n v => [45 :: 45 :: (n ++ 61 :: v)]
  | .longSep _ n v => [45 :: 45 :: n, v]

/-- What it asks for. -/
def Item.opts : Item → List Opt
  | .operand _ => []
  | .letters f fs => .flag f :: fs.map .flag
  | .attached fs k v => fs.map .flag ++ [.value k v]
  | .separate fs k v => fs.map .flag ++ [.value k v]
  | .long f _ => [.flag f]
  | .longEq k _ v => [.value k v]
  | .longSep k _ v => [.value k v]

def Item.isOperand : Item → Bool
  | .operand _ => true
  | _ => false

/-- The operands among the items, and the words of the others. -/
def operands (is : List Item) : List Word := (is.filter Item.isOperand).flatMap Item.words
def optionWords (is : List Item) : List Word := (is.filter (! ·.isOperand)).flatMap Item.words
def words (is : List Item) : List Word := is.flatMap Item.words
def opts (is : List Item) : List Opt := is.flatMap Item.opts

def valueOf (k : Kind) : Opt → Option Word
  | .value k' v => if k = k' then some v else none
  | .flag _ => none

def flagOf : Opt → Option Bool
  | .flag .daemon => some true
  | .flag .noDaemon => some false
  | .value _ _ => none

/-- The last option of a kind counts; what was not given is NULL, or 0. -/
def configOf (os : List Opt) : Option Word := (os.filterMap (valueOf .config)).getLast?
def pidOf (os : List Opt) : Option Word := (os.filterMap (valueOf .pid)).getLast?
def daemonOf (os : List Opt) : Bool := (os.filterMap flagOf).getLast?.getD false

/-- The end of a command line: nothing, or "--" and any words. -/
inductive Tail where
  | nothing
  | dashes (ws : List Word)

def Tail.words : Tail → List Word
  | .nothing => []
  | .dashes ws => [45, 45] :: ws

def Tail.operands : Tail → List Word
  | .nothing => []
  | .dashes ws => ws

def Tail.mark : Tail → List Word
  | .nothing => []
  | .dashes _ => [[45, 45]]

/-- Words that begin with a mistake; `fs` are letters in front of it that are right. -/
inductive Mistake : List Word → List Flag → Prop where
  /-- a letter that is not an option, in a word that does not begin with "--" -/
  | letter (fs : List Flag) (c : UInt8) (cs : Word) (rest : List Word) (h : c ∉ [99, 112, 100, 68]) (h' : fs = [] → c ≠ 45) :
      Mistake ((45 :: (fs.map Flag.letter ++ c :: cs)) :: rest) fs
  /-- a letter without its argument at the end of the line -/
  | noArg (fs : List Flag) (k : Kind) : Mistake [45 :: (fs.map Flag.letter ++ [k.letter])] fs
  /-- a long option whose name (up to '=') abbreviates none of the names -/
  | name (w n : Word) (rest : List Word) (h : w ≠ []) (hn : w = n ∨ ∃ v, w = n ++ 61 :: v) (h61 : 61 ∉ n)
      (h' : (∀ k : Kind, ¬ Abbrev n k.name) ∧ ∀ f : Flag, ¬ Abbrev n f.name) : Mistake ((45 :: 45 :: w) :: rest) []
  /-- an argument for an option that takes none -/
  | extra (f : Flag) (n v : Word) (rest : List Word) (h : Abbrev n f.name) : Mistake ((45 :: 45 :: (n ++ 61 :: v)) :: rest) []
  /-- a long option without its argument at the end of the line -/
  | noLongArg (k : Kind) (n : Word) (h : Abbrev n k.name) : Mistake [45 :: 45 :: n] []

end Verif.GetOpt.Spec
