* The Lean 4 kernel and the Mathlib version installed here. No axiom of our own, no `sorry`, no `native_decide`.
* Axioms: only `propext`, `Classical.choice` and `Quot.sound`; which theorem uses which is listed below.
* The reading of python, numpy, networkx 2.6.3 and pandas semantics in the modelled functions.
* The correspondence between each definition and the lines it cites: by reading.

Not expressible, or left out:

* Floating point rounding and running time.
* The distribution of numpy's random generators: the theorems quantify over all outcomes instead.
* scipy's `minimize`: its objective is modelled (C61), the optimiser is a parameter.
* pgmpy and bnlearn themselves: only what is handed over to them and what is taken back.
* Printing (`__repr__`, `name`), plots, timers, seeds (`util/plotutils.py`, `watch.py`, `randomUtil.py`).
