import Verif.Model.Interrupted

/-!
# The folder of a task (`src/util/task_utils.hpp` 390-424 and 646-665, `src/lang/statements/create_task_statement.hpp`)

The folders of a repository are `tasks`, `datasets` and `logs` (execution_context.hpp:13-16, task_utils.hpp:401-402). What the search for a network does to
the disk are checkpoints of knowledge in the folder of the task (neural_network.hpp:400, 477, 540, 581-582); which ones, and what network it ends with, is
an arbitrary function of the datasets and the goal. The contents of `dataset.bin` is a text here (its format: C24). Simplifications: those of
`Verif.Model.ModelFiles`; everything the log receives is written at once; removing folders does not fail.
-/
namespace Verif.TaskFiles
open Verif.TextCodec Verif.ModelFiles Verif.Interrupted Verif.Dsl Verif.Decimal

/-- The parts of a path between slashes. -/
def components : Str → List Str
  | [] => [[]]
  | c :: s => if c = 47 then [] :: components s else
    match components s with
    | [] => [[c]]
    | h :: t => (c :: h) :: t

/-- The folder that a component of a path leads to. -/
def enter (p : Path) (c : Str) : Path := if c = [] ∨ c = text "." then p else if c = text ".." then p.tail else c :: p

/-- The path of `base + name`, where `base` ends with a slash, execution_context.hpp:36-46, task_utils.hpp:405. -/
def resolve (base : Path) (name : Str) : Path := (components name).foldl enter base

def tasksIn (repo : Path) : Path := text "tasks" :: repo
def datasetsIn (repo : Path) : Path := text "datasets" :: repo
def logsIn (repo : Path) : Path := text "logs" :: repo
def logName : Str := text "log.txt"
def dataName : Str := text "dataset.bin"

/-- What a search ends with: the description of the network, its weights, and the description of the columns. -/
structure Trained where
  config : Str
  files : List (Str × Raw)
  header : Str
  deriving DecidableEq

/-- What training does to the disk: neural_network.hpp:540 and 477, 582; `n` is the clock, line 400. -/
inductive Check
  | save (n : Nat) (files : List (Str × Raw))
  | remove (n : Nat)
  deriving DecidableEq

/-- The label of a checkpoint, neural_network.hpp:400-402. -/
def checkLabel (n : Nat) : Str := text "checkpoint_" ++ dec n

/-- One checkpoint; the exception of a failed one ends the attempt, task_utils.hpp:384-386. -/
def check (p : Path) (k : Disk Raw) : Check → Disk Raw
  | .save n files => (saveKnowledge k p (checkLabel n) true n files).getD k
  | .remove n => removeKnowledge k p (checkLabel n)

/-- A search: what it does to the disk, and what it ends with; `none` is an exception. -/
abbrev Search := Str → Option Str → Str → List Check × Option Trained

/-- A call of `create_label_task`, task_utils.hpp:390-392; `log` is what it writes into the log, `ms` and `ms'` are times. -/
structure Call where
  name : Str
  goal : Str
  dataset : Str
  test : Str
  log : Str
  ms : Nat
  ms' : Nat

/-- The text in a file; `none`: `BinaryDatasetReader` throws, file_reader.hpp:213-216. -/
def readData (k : Disk Raw) (p : Path) : Option Str := match k p with | some (.file (.text s)) => some s | _ => none

/-- `ofstream(path, ios_base::app)` and writing; nothing is reported if the file cannot be opened, task_utils.hpp:403. -/
def appendText (k : Disk Raw) (p : Path) (s : Str) : Disk Raw := if canWrite k p then put k p (.file (.text ((readData k p).getD [] ++ s))) else k

/-- `BinaryDatasetWriter` without rows; nothing is reported if the file cannot be opened, file_writer.hpp:140-141. -/
def writeData (k : Disk Raw) (p : Path) (s : Str) : Disk Raw := if canWrite k p then put k p (.file (.text s)) else k

/-- The two datasets of a call, task_utils.hpp:418-433. -/
def readDatasets (k : Disk Raw) (repo : Path) (c : Call) : Option (Str × Option Str) :=
  (readData k (dataName :: resolve (datasetsIn repo) c.dataset)).bind fun d =>
    if c.test = [] then some (d, none) else (readData k (dataName :: resolve (datasetsIn repo) c.test)).map fun t => (d, some t)

/-- The log is opened, task_utils.hpp:401-403; `none`: the exception of `create_directories`. -/
def opened (k : Disk Raw) (repo : Path) : Option (Disk Raw) :=
  (createDirectories (logsIn repo) k).map fun k => appendText k (logName :: logsIn repo) []

/-- Whether the task is there already, task_utils.hpp:406-411. -/
def present (k : Disk Raw) (p : Path) : Bool := (k p).isSome && (k (configName :: p)).isSome

/-- An incomplete task is removed, task_utils.hpp:406-414, and the log is written. -/
def cleared (k : Disk Raw) (repo : Path) (c : Call) : Disk Raw :=
  let p := resolve (tasksIn repo) c.name
  appendText (if (k p).isSome then removeAll k p else k) (logName :: logsIn repo) c.log

/-- task_utils.hpp:390-665 `create_label_task`: the result and the disk afterwards. The model is saved at line 646 (`saveWithOverwrite`,
neural_network.hpp:203-206), the description of the columns at task_utils.hpp:648-650. -/
def createLabelTask (search : Search) (repo : Path) (k : Disk Raw) (c : Call) : Bool × Disk Raw :=
  let p := resolve (tasksIn repo) c.name
  match opened k repo with
  | none => (false, k)
  | some k =>
    if present k p then (true, k)
    else
      let k := cleared k repo c
      match readDatasets k repo c with
      | none => (false, k)
      | some d =>
        let r := search d.1 d.2 c.goal
        let k := r.1.foldl (check p) k
        match r.2 with
        | none => (false, k)
        | some r =>
          match saveAs k p true c.ms c.ms' r.config r.files with
          | none => (false, k)
          | some k => (true, writeData k (dataName :: p) r.header)

/-- create_task_statement.hpp:31-56, for the type `label`: whether the statement succeeds, and the disk afterwards. -/
def createTask (search : Search) (repo : Path) (k : Disk Raw) (c : Call) : Bool × Disk Raw :=
  if (readData k (dataName :: resolve (datasetsIn repo) c.dataset)).isNone then (false, k) else createLabelTask search repo k c

/-- What `execute_task_with_inputs` needs before it looks at the inputs, task_utils.hpp:87-97. -/
def executable (repo : Path) (k : Disk Raw) (name : Str) : Bool :=
  let p := resolve (tasksIn repo) name
  (k p).isSome && (loadNet k p).isSome && (readData k (dataName :: p)).isSome

/-! ### The program is stopped -/

/-- During a checkpoint. -/
def Checking (p : Path) (k : Disk Raw) : Check → Disk Raw → Prop
  | .save n files, k' => SavingKnowledge k p (checkLabel n) true n files k'
  | .remove n, k' => Removing k (checkLabel n :: p) k'

/-- The disks that can be found when the program is stopped during `create_label_task`. -/
inductive Moment (search : Search) (repo : Path) (k : Disk Raw) (c : Call) : Disk Raw → Prop
  | logging (k' : Disk Raw) : Creating k (logsIn repo) k' → Moment search repo k c k'
  | opened (k1 : Disk Raw) : opened k repo = some k1 → Moment search repo k c k1
  | removing (k1 k' : Disk Raw) : TaskFiles.opened k repo = some k1 → present k1 (resolve (tasksIn repo) c.name) = false →
      Removing k1 (resolve (tasksIn repo) c.name) k' → Moment search repo k c k'
  | cleared (k1 : Disk Raw) : TaskFiles.opened k repo = some k1 → present k1 (resolve (tasksIn repo) c.name) = false →
      Moment search repo k c (cleared k1 repo c)
  | training (k1 k' : Disk Raw) (d : Str × Option Str) (done : List Check) (x : Check) (rest : List Check) : TaskFiles.opened k repo = some k1 →
      present k1 (resolve (tasksIn repo) c.name) = false → readDatasets (TaskFiles.cleared k1 repo c) repo c = some d →
      (search d.1 d.2 c.goal).1 = done ++ x :: rest →
      Checking (resolve (tasksIn repo) c.name) (done.foldl (check (resolve (tasksIn repo) c.name)) (TaskFiles.cleared k1 repo c)) x k' →
      Moment search repo k c k'
  | saving (k1 k' : Disk Raw) (d : Str × Option Str) (r : Trained) : TaskFiles.opened k repo = some k1 →
      present k1 (resolve (tasksIn repo) c.name) = false → readDatasets (TaskFiles.cleared k1 repo c) repo c = some d →
      (search d.1 d.2 c.goal).2 = some r →
      SavingAs ((search d.1 d.2 c.goal).1.foldl (check (resolve (tasksIn repo) c.name)) (TaskFiles.cleared k1 repo c))
        (resolve (tasksIn repo) c.name) true c.ms c.ms' r.config r.files k' →
      Moment search repo k c k'
  | writing (k1 k2 k' : Disk Raw) (d : Str × Option Str) (r : Trained) : TaskFiles.opened k repo = some k1 →
      present k1 (resolve (tasksIn repo) c.name) = false → readDatasets (TaskFiles.cleared k1 repo c) repo c = some d →
      (search d.1 d.2 c.goal).2 = some r →
      saveAs ((search d.1 d.2 c.goal).1.foldl (check (resolve (tasksIn repo) c.name)) (TaskFiles.cleared k1 repo c))
        (resolve (tasksIn repo) c.name) true c.ms c.ms' r.config r.files = some k2 →
      WritingText k2 (dataName :: resolve (tasksIn repo) c.name) r.header k' → Moment search repo k c k'

end Verif.TaskFiles
