"""Compares the model's diagrams (see plots.lean.txt) with the expected ones in circuit_diagrams_test.py."""
import re, sys
text = open('/repo/src/circuit_diagrams_test.py').read()
for name, body in re.findall(r'def test_plot_(\w+)\(\):.*?r"""\n(.*?)"""', text, re.S):
    model = open(f'{sys.argv[1]}/p_{name}.txt').read()
    print(name, 'same' if model.strip() == body.strip() else 'DIFFERENT')
