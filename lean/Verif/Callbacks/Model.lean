import Verif.Py.Dict

/-!
# Model of training metrics

Models `/repo/gensim/models/callbacks.py` (labels, `Callback`) and the loop of `LdaModel.update` that calls it. A metric is a
function of the model and of the remembered earlier model. `M` are models, `V` the values of metrics.
-/

namespace Verif.Callbacks

open Verif

/-- What can be raised; `hang` is `Queue.get` on an empty queue. -/
inductive Err | import | attribute | index | hang
  deriving DecidableEq, Repr

/-- Where a metric is reported. -/
inductive Logger | none | shell | visdom
  deriving DecidableEq, Repr

/-- A metric (`callbacks.py` 109-442). `usesPrevious`: an instance of `DiffMetric` or `ConvergenceMetric`. -/
structure Metric (M V : Type) where
  title : Option String
  cls : String
  usesPrevious : Bool
  logger : Logger
  value : M → Option M → V

/-- `Metric.__str__` (`callbacks.py` 129-132). -/
def label {M V : Type} (m : Metric M V) : String :=
  match m.title with
  | some t => t
  | none => String.ofList (m.cls.toList.take (m.cls.toList.length - 6))

/-- What is sent to the plotting server, with the number of the window. -/
inductive Plot (V : Type)
  | newHeat (win : Nat) (label : String) (rows : List V)
  | newLine (win : Nat) (label : String) (epoch : Nat) (v : V)
  | heat (win : Nat) (label : String) (rows : List V)
  | line (win : Nat) (epoch : Nat) (v : V)
  deriving DecidableEq, Repr

/-- The state of a `Callback`. The queue exists only if some metric needs the earlier model. -/
structure CB (M V : Type) where
  previous : Option M
  queue : Option (List (List V))
  windows : List Nat
  plots : List (Plot V)
  shell : List (Nat × String × V)

variable {M V : Type}

/-- `set_model` (`callbacks.py` 477-492). -/
def setModel (visdomInstalled : Bool) (metrics : List (Metric M V)) (model : M) : Except Err (CB M V) :=
  let need := metrics.any (·.usesPrevious)
  if metrics.any (fun m => m.logger = .visdom) && !visdomInstalled then .error .import
  else .ok { previous := if need then some model else none, queue := if need then some [] else none, windows := [], plots := [],
             shell := [] }

/-- The plotting part of the loop body (`callbacks.py` 524-558) for the metric at position `i`. The windows of the server are
numbered as they are opened. -/
def plot (isArray : V → Bool) (epoch i : Nat) (lab : String) (v : V) (cb : CB M V) : Except Err (CB M V) :=
  if epoch = 0 then
    if isArray v then
      match cb.queue with
      | none => .error .attribute
      | some q => .ok { cb with queue := some (q ++ [[v]]), windows := cb.windows ++ [cb.windows.length],
                                plots := cb.plots ++ [.newHeat cb.windows.length lab [v]] }
    else .ok { cb with windows := cb.windows ++ [cb.windows.length],
                       plots := cb.plots ++ [.newLine cb.windows.length lab epoch v] }
  else
    if isArray v then
      match cb.queue with
      | none => .error .attribute
      | some [] => .error .hang
      | some (h :: q) =>
        match cb.windows[i]? with
        | none => .error .index
        | some w => .ok { cb with queue := some (q ++ [h ++ [v]]), plots := cb.plots ++ [.heat w lab (h ++ [v])] }
    else
      match cb.windows[i]? with
      | none => .error .index
      | some w => .ok { cb with plots := cb.plots ++ [.line w epoch v] }

/-- The loop body of `on_epoch_end` (`callbacks.py` 518-562). -/
def metricStep (isArray : V → Bool) (model : M) (epoch : Nat) (s : CB M V × PyDict String V) (im : Metric M V × Nat) :
    Except Err (CB M V × PyDict String V) :=
  let lab := label im.1
  let v := im.1.value model s.1.previous
  let cur := PyDict.set s.2 lab v
  match im.1.logger with
  | .visdom =>
    match plot isArray epoch im.2 lab v s.1 with
    | .ok cb => .ok (cb, cur)
    | .error e => .error e
  | .shell => .ok ({ s.1 with shell := s.1.shell ++ [(epoch, lab, v)] }, cur)
  | .none => .ok (s.1, cur)

/-- `on_epoch_end` (`callbacks.py` 515-568). -/
def onEpochEnd (isArray : V → Bool) (metrics : List (Metric M V)) (model : M) (epoch : Nat) (cb : CB M V) :
    Except Err (CB M V × PyDict String V) :=
  match metrics.zipIdx.foldlM (metricStep isArray model epoch) (cb, []) with
  | .error e => .error e
  | .ok (cb, cur) => .ok (if metrics.any (·.usesPrevious) then { cb with previous := some model } else cb, cur)

/-! ### The training loop of `LdaModel.update` -/

/-- One step of each kind. `fresh` is an empty `LdaState`. `mstep` is given the number of the pass. -/
structure Trainer (M S C : Type) where
  fresh : S
  estep : M → C → S → S
  mstep : Nat → M → S → M

variable {S C : Type}

/-- The chunk loop of one pass (`ldamodel.py` 965-1008): `every` is `update_every * numworkers`, 0 for batch training. The model,
the statistics, and whether statistics are waiting. -/
def chunkLoop (t : Trainer M S C) (every pass : Nat) : List C → Nat → M × S × Bool → M × S × Bool
  | [], _, st => st
  | c :: cs, no, (m, s, _) =>
    let s := t.estep m c s
    if every ≠ 0 ∧ (no + 1) % every = 0 then chunkLoop t every pass cs (no + 1) (t.mstep pass m s, t.fresh, false)
    else chunkLoop t every pass cs (no + 1) (m, s, true)

/-- One pass (`ldamodel.py` 956-1025): the model the metrics see, and the model the pass ends with. -/
def onePass (t : Trainer M S C) (every : Nat) (chunks : List C) (pass : Nat) (m : M) : M × M :=
  let st := chunkLoop t every pass chunks 0 (m, t.fresh, false)
  (st.1, if st.2.2 then t.mstep pass st.1 st.2.1 else st.1)

/-- Appending the values of an epoch (`ldamodel.py` 1014-1018). -/
def record (acc : PyDict String (List V)) (cur : PyDict String V) : PyDict String (List V) :=
  cur.foldl (fun acc e => PyDict.set acc e.1 (PyDict.getD acc e.1 [] ++ [e.2])) acc

/-- The state of a training run. -/
structure Run (M V : Type) where
  model : M
  cb : CB M V
  metrics : PyDict String (List V)

/-- One pass with metrics. -/
def passStep (isArray : V → Bool) (t : Trainer M S C) (every : Nat) (chunks : List C) (metrics : List (Metric M V)) (r : Run M V)
    (pass : Nat) : Except Err (Run M V) :=
  let p := onePass t every chunks pass r.model
  match onEpochEnd isArray metrics p.1 pass r.cb with
  | .error e => .error e
  | .ok (cb, cur) => .ok { model := p.2, cb := cb, metrics := record r.metrics cur }

/-- `update` with metrics (`ldamodel.py` 949-1025). -/
def update (visdomInstalled : Bool) (isArray : V → Bool) (t : Trainer M S C) (every : Nat) (chunks : List C)
    (metrics : List (Metric M V)) (model : M) (passes : Nat) : Except Err (Run M V) :=
  match setModel visdomInstalled metrics model with
  | .error e => .error e
  | .ok cb => (List.range passes).foldlM (passStep isArray t every chunks metrics) { model := model, cb := cb, metrics := [] }

end Verif.Callbacks
