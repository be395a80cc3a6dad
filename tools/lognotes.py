#!/usr/bin/env python3
"""Adds a "note" to the lines of seeded/LOG.jsonl whose outcome needs an explanation."""
import json
P="/verif/seeded/LOG.jsonl"
N={("abs","",0):"survived when tried; C66_neg_abs was added and the next line is the re-run, which fails",
("Node.tryEval","throw unreachable",0):"survived when tried; C56_unevaluable was added, the re-run below fails",
("kComp",":= alpha - e + 64",0):"harmless: the chosen cached power still leaves the product inside the window the proof needs, so the claim stays true of the edited program",
("cross","",0):"the build failed in a proof step outside a named declaration (no name was recorded); the mutation did not survive",
("toT","divT M a.den a.num",0):"built with a target that does not import the users of toT; re-run below with Verif.Frac.FracInt",
("expPart","if neg then digVal",0):"built with a target that does not import Num/OutputProof; re-run below with it",
("printFunc","throw",0):"equivalent: the branch is never reached, because print tests the name first",
("cmdPrint","s.funcs.find",0):"survived with a narrow target; the re-run with the full build fails",
("LOG","89fe",0):"equivalent: the perturbed constant gives the same exponent for every index in the range"}
L=[json.loads(x) for x in open(P)]
for r in L:
    if r.get("survived") or (not r["failed"]):
        for (d,e,_),t in N.items():
            if r["definition"]==d and e in r["edit"] and "note" not in r: r["note"]=t
open(P,"w").write("".join(json.dumps(r,ensure_ascii=False)+"\n" for r in L))
print([ (i+1,r["definition"]) for i,r in enumerate(L) if (r["survived"] or not r["failed"]) and "note" not in r])
