"""Writes DESIGN.md from the texts below, properties.jsonl, MANIFEST.json, the sources and tools/axioms.json
(axioms of each theorem, as collected by Lean)."""
import ast, glob, json, os, re

ROOT = "/verif"
HOW = {}
def h(pid, model, proof): HOW[pid] = (model, proof)

h("C01", "`Store.*` (four stores, one code path each), `Factor.Basic`: `MultinomialFactor.multiply`.", "The value function of a store is its semantics; index calculus (`NdArray`, `DomainUtils`) for arrays, induction on the tree for `treedict`; collected in the laws `StoreImpl.Lawful`, which every store is shown to meet.")
h("C02", "As C01, with shared variables whose states are listed in different orders.", "Same index calculus for the label-based stores; the default store aligns axes by position and is refuted by evaluation. `C02_exact` says for which domains the default store is right: exactly when the shared variables list their states in the same order (a table with a single 1 tells the orders apart).")
h("C03", "`addition`, `subtract`, scalar operands (`_prepare_operand`).", "As C01.")
h("C04", "`divide`; `Py.Fl` has `nan` and infinities, `np.nan_to_num`.", "As C01, case analysis on zero denominators.")
h("C05", "`marginalize` of each store.", "Sum over an axis = sum over the states of the variable; induction on the list of variables.")
h("C06", "`maxmarginalize`.", "As C05 with maxima.")
h("C07", "`restrict` to one state.", "Basic indexing of arrays, descent in trees.")
h("C08", "`restrict` with lists of states (numpy basic and advanced indexing).", "The proved cases by index calculus (`Store/NumpyLists.lean`: where numpy puts the axis of a list among integers and slices); three counterexamples by evaluation.")
h("C09", "Programs over factors, run on two stores.", "Induction on the program with the laws of C01-C07.")
h("C10", "`set_value`/`get_value`.", "List update at a flat index; different joint states have different indices.")
h("C11", "`index_iterator`, `get_stepsize`, `coordinates`.", "Mixed-radix arithmetic, induction on the domain.")
h("C12", "Constructors (`builder`) of the four stores.", "Index calculus; reshape is the identity on flat data.")
h("C13", "`DiscreteFactor.values_array`.", "`moveaxis` as a permutation of coordinates.")
h("C14", "`rename_vars`.", "Domain and data unchanged up to the injective renaming.")
h("C15", "`left_vars`/`right_vars` through operation sequences.", "Invariant over operations.")
h("C16", "`Factor.Deterministic`, `to_multinomial`.", "Enumeration of the joint states of the right variables.")
h("C17", "`to_deterministic` (argmax).", "argmax of a zero-one column is the position of the one.")
h("C18", "`MultinomialFactor.constant`, `DeterministicFactor.constant`.", "Direct computation.")
h("C19", "`canonical_deterministic`.", "Enumeration of all functions by mixed-radix digits: injective and surjective.")
h("C20", "`normalize_array`, `random_multinomial`, `uniform_multinomial`.", "Sum over axes as a sum over states; the draws of the generator are an argument.")
h("C21", "`graphutils.barren_nodes`, `barren_removal`.", "Computed reachability equals the inductive closure.")
h("C22", "`dag2str`, `str2dag` on character lists.", "Parsing of what was printed, induction on edges.")
h("C23", "`markov_blanket`.", "Set extensionality.")
h("C24", "`dsep_nodes`, `dcon_nodes` through networkx' `d_separated` (moral ancestral graph).", "Factorisation of the joint over the two sides of a cut, over any field.")
h("C25", "`inference/ordering.py`, all heuristics.", "Loop invariant: the order is duplicate-free and consists of the variables to remove.")
h("C26", "`set_factor` and its checks as transitions.", "Invariant over all histories of calls.")
h("C27", "Constructors with lists and dictionaries of factors.", "Invariant on recorded domains in topological order; for the exact statements an invariant that says what is recorded after any list of tables.")
h("C28", "`nx.is_directed_acyclic_graph` as used by the constructors.", "Computed cycle test equals absence of a closed walk.")
h("C29", "`Spec.BN`: joint as product of tables.", "Induction on a topological order; the last node sums to one.")
h("C30", "`sample`, choices of the generator as arguments.", "Induction on the order of sampling: every drawn state has positive probability.")
h("C31", "`do_intervention` on `SCM`.", "Specification is the truncated factorisation; the constructed object represents it.")
h("C32", "Two interventions in sequence.", "Both sides represent the same truncated network.")
h("C33", "`to_multinomial`, `to_bnet`.", "Table by table; witnesses by evaluation.")
h("C34", "`rename_vars` of models.", "The renamed network is the image under an injective map.")
h("C35", "`fusion_roots`.", "Product of the worlds given the shared roots.")
h("C36", "`Inference.*`: `VariableElimination.compile/run`, pruning, any order of python's sets.", "Loop invariant: the factors are partial sums of blocks of tables that partition the network; pruning lemmas (barren nodes sum to one, separated part factorises).")
h("C37", "Order as an argument.", "Corollary of C36.")
h("C38", "Preprocessing of queries.", "Corollary of C36 with and without pruning.")
h("C39", "`conditional` queries.", "Ratio of two sums of C36.")
h("C40", "Impossible evidence.", "0/0 = 0 of C04 in the last normalisation.")
h("C41", "Refusals of `compile`/`query` and the state of the object afterwards.", "Case analysis on the checks; witnesses for what is accepted.")
h("C42", "`CausalInference.compile/query/_preprocess`.", "C31 then C36.")
h("C43", "`counterfactual_query` through the twin network.", "C31 for each world, C35, C36; names are injective for fresh names.")
h("C44", "Which counterfactual queries are answered.", "As C43; witnesses for the rest.")
h("C45", "Consistency.", "Probabilities of C43 compared under the evidence.")
h("C46", "`prob_necessity`, `prob_sufficiency`, `prob_necessity_sufficiency`.", "C43 and arithmetic of events.")
h("C47", "`identify_true_false`.", "Case analysis on strings and types of states.")
h("C48", "`LaplaceInference.run`, `to_counts`, `filter_data`.", "Counting over rows of the frame.")
h("C49", "`max_log_likelihood`, `log_likelihood`.", "Gibbs' inequality over the reals, applied to each family of the decomposition graph.")
h("C50", "`IntervalProbFactor.from_precise`, multi-model queries.", "Minimum and maximum over a finite list.")
h("C51", "Objects with shared model lists: histories of calls on a heap.", "Invariant over histories; witnesses for aliasing.")
h("C52", "`compile_incremental` as a sequence of yields.", "Induction on batches.")
h("C53", "Thread pool as a permutation of completions.", "All schedules; witness for the mismatch; `C53_exact` compares the two lists place by place.")
h("C54", "`IterativeParameterLearning.run`.", "Induction on steps, any learner.")
h("C55", "EM `run` twice on one object.", "State after the first run; theorem that nothing is learned.")
h("C56", "`ExpectationMaximization.step`.", "Table by table; normalisation of C20.")
h("C57", "`_get_obs_counts`, `DataDepAnalysis`.", "Counting of rows that agree with a pattern.")
h("C58", "Likelihood after an EM step.", "Gibbs' inequality over any Archimedean ordered field, by comparison of products of powers.")
h("C59", "Expected counts with observed parents (`Learn/EM.lean`).", "The computed counts are sums of posteriors of what is hidden, which do not depend on the states of observed parents (`C59_broadcast`); a possible record has a completion of positive probability, and changing an observed state in it gives a cell that is counted too often. So the counts are right exactly if nothing observed could have been different (`C59_exact`).")
h("C60", "`DataDepAnalysis`: distinct observations.", "Induction on the rows.")
h("C61", "`learning/parameter/gradient.py`: the objective and the update.", "Sum over records of logs over exogenous states; the optimiser is a parameter.")
h("C62", "`DiscreteDAGModel.get_domains`.", "Membership versus substring; witness.")
h("C63", "`readwrite/bnread.py`, `bnwrite.py`: characters of the UAI format.", "The reader inverts the writer on tokens, induction on tables.")
h("C64", "`readwrite/scmread.py`, `scmwrite.py`.", "As C63, with the renaming of states.")
h("C65", "`conversion/pgmpy.py` export.", "Index calculus of the reshaped matrix.")
h("C66", "`ccomponents`, `endo_ccomponents`, `exo_graph`.", "Components as classes of an equivalence relation.")
h("C67", "`get_qgraph`.", "Order of outside parents; witness of a cycle.")
h("C68", "`btreestore.py`, `btreeops.py`.", "Induction on the tree.")
h("C69", "Heap model of stores: references and writes.", "Separation invariant over programs.")
h("C70", "`powerset`.", "Enumeration by size; no duplicates.")
h("C71", "`get_value` with too few variables.", "What each store returns.")
h("C72", "`graphutils.markov_blanket` with hidden variables, `dcon_nodes`.", "C24 with the blanket as separator.")
h("C73", "`DataDepAnalysis.get_minimal_obs_blanket`.", "C24.")
h("C74", "`submodel`.", "The call raises; the intended call gives the marginal.")
h("C75", "pgmpy import and export.", "Inverse index maps.")
h("C76", "`_best_split_point`.", "Loop invariant shows which split is kept; witness.")
h("C77", "`log_likelihood`, `get_qbnet`.", "Tian's factorisation: the conditional given the decomposition parents from d-separation and induction on the order.")
h("C78", "`get_qfactors`.", "Product over a component equals the sum over its exogenous variables of the equations: an intervention on the rest.")
h("C79", "`Factor.Operators`: expression trees.", "Induction on the tree with the laws of the stores.")
h("C80", "`Model.Random`: `random_deterministic`, `fill_random_factors`, `randomize_factors`.", "Loop invariant on recorded states; each drawn table is a conditional table (C20) or an indicator column.")
exec(open(os.path.join(ROOT, "tools/design_more.py")).read()) if os.path.exists(os.path.join(ROOT, "tools/design_more.py")) else None

def theorem_files():
    loc = {}
    for f in glob.glob(ROOT + "/lean/Verif/**/*.lean", recursive=True):
        for l in open(f):
            r = re.match(r"(?:private |protected )?theorem (\S+)", l)
            if r: loc.setdefault(r.group(1).split(".")[-1], f[len(ROOT + "/lean/"):])
    return loc

def functions():
    out = []
    for f in sorted(glob.glob("/repo/bcause/**/*.py", recursive=True)):
        try: t = ast.parse(open(f).read())
        except SyntaxError: continue
        def walk(n, pre):
            for c in ast.iter_child_nodes(n):
                if isinstance(c, (ast.FunctionDef, ast.ClassDef)):
                    if isinstance(c, ast.FunctionDef): out.append((f[len("/repo/"):], pre + c.name, c.lineno, c.end_lineno))
                    walk(c, pre + c.name + ".")
        walk(t, "")
    return out

def cites():
    base = [f[len("/repo/"):] for f in glob.glob("/repo/bcause/**/*.py", recursive=True)]
    c = {}
    for lf in glob.glob(ROOT + "/lean/Verif/**/*.lean", recursive=True):
        for m in re.finditer(r"([\w/]+\.py):([\d\-–, ]+)", open(lf).read()):
            cands = [x for x in base if x.endswith("/" + m.group(1)) or x == m.group(1)]
            for r in re.finditer(r"(\d+)(?:\s*[-–]\s*(\d+))?", m.group(2)):
                a = int(r.group(1)); b = int(r.group(2) or a)
                for x in cands: c.setdefault(x, set()).add((a, b, lf[len(ROOT + "/lean/"):-5].replace("/", ".")))
    return c

def main():
    props = [json.loads(l) for l in open(ROOT + "/properties.jsonl")]
    claims = {c["property"]: c for c in json.load(open(ROOT + "/MANIFEST.json"))["claims"]}
    loc = theorem_files()
    axs = json.load(open(ROOT + "/tools/axioms.json"))
    o = [open(ROOT + "/tools/design_head.md").read().rstrip(), ""]
    o += ["## 3. Properties", "",
          "For each property: what is modelled, how it is proved, where the theorems are, and the status with what is missing.", ""]
    for p in props:
        c = claims[p["id"]]
        model, proof = HOW.get(p["id"], ("", ""))
        files = sorted({loc[t.split(".")[-1]] for t in c["theorems"] if t.split(".")[-1] in loc})
        o.append(f"### {p['id']} {p['title']} ({c['status']})")
        o.append("")
        o.append(f"{p['statement']} Quantifier: {p['quantifier']}.")
        o.append("")
        if model: o.append(f"* Model: {model}")
        if proof: o.append(f"* Proof: {proof}")
        o.append("* Theorems: " + ", ".join("`" + t.split(".")[-1] + "`" for t in c["theorems"]) + " in " + ", ".join("`" + f + "`" for f in files))
        o.append(f"* Note: {c['note']}")
        o.append("")
    o += ["## 4. Trusted base", "", open(ROOT + "/tools/design_trust.md").read().rstrip(), "",
          "### Axioms per theorem", "",
          "Collected with `Lean.collectAxioms` for every theorem named in the manifest.", ""]
    groups = {}
    for c in claims.values():
        for t in c["theorems"]:
            groups.setdefault(tuple(sorted(axs.get(t, ["?"]))), []).append(t.split(".")[-1])
    for k in sorted(groups, key=lambda k: (len(k), k)):
        o.append("* " + (", ".join("`" + x + "`" for x in k) if k else "no axioms") + ": " + ", ".join(sorted(groups[k])))
    o += ["", "### Which code is modelled", "",
          "Functions whose lines are cited by a definition, with the modules that cite them; then the functions no definition cites. "
          "Many of the latter are abstract methods, properties that return a field, operators that only call a modelled method, and printing.", ""]
    cs, fs = cites(), functions()
    for f in sorted({x[0] for x in fs}):
        mine = [x for x in fs if x[0] == f]
        hit = lambda x: any(x[2] <= b and a <= x[3] for a, b, _ in cs.get(f, ()))
        mods = sorted({m for _, _, m in cs.get(f, ())})
        o.append(f"* `{f}`: {sum(map(hit, mine))} of {len(mine)} functions" + (" (" + ", ".join(mods) + ")" if mods else "") )
        miss = [x[1] for x in mine if not hit(x)]
        if miss: o.append("  * not cited: " + ", ".join("`" + m + "`" for m in miss))
    o.append("")
    open(ROOT + "/DESIGN.md", "w").write("\n".join(o))
    print([p["id"] for p in props if p["id"] not in HOW])

if __name__ == "__main__": main()
