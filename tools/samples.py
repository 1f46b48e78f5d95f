#!/usr/bin/env python3
"""Write lean/Verif/Model/Samples.lean: the sample configuration files of /repo as Lean texts, and the values written in them."""
import re

CORE = dict(N_parm='nParm', N_iter='nIter', N_stoptune='nStoptune', N_begintune='nBegintune', Tune_Ladder='tuneLadder',
            N_stopTuneLadder='nStopTuneLadder', scale_tune_ladder='scaleLadder', zero_stretch='zeroStretch', N_beta='nBeta', Fout_Len='foutLen',
            FoutPre='foutPre', FoutSuf='foutSuf', results_dir='resultsDir', Beta_Values='betas', Data_file='dataFile', ndim_data='ndim',
            Delimiter='delimiter', init_gp_ratio='initGpRatio', init_rand_seed='initSeed', i_save_begin='saveBegin', n_iter_a_stack='nStack',
            n_iter_a_batch_base='base', n_iter_a_batch_rand='rand', n_iter_in_tune='nIterInTune', ar_ok_lower='arLower', ar_ok_upper='arUpper',
            ar_best='arBest', ar_accept_diff='arAcceptDiff', sigma_scale_half_ratio='halfRatio', sigma_scale_min='scaleMin',
            sigma_scale_max='scaleMax', sigma_jumpin_ratio='jumpin', N_swap='nSwap', Swapmode='swapmode')
WORDS = {'foutPre', 'foutSuf', 'resultsDir', 'dataFile', 'delimiter'}
DECS = {'scaleLadder', 'zeroStretch', 'initGpRatio', 'arLower', 'arUpper', 'arBest', 'arAcceptDiff', 'halfRatio', 'scaleMin', 'scaleMax', 'jumpin'}
PAIRS = dict(gaussianPairs='ab', regressionPairs='abd', rastriginPairs='abcdf')

FILES = [('regressionSample', 'models/regression/input.ini', 'regressionPairs', 'the same as input.ini'),
         ('gaussianSample', 'models/multi_gaussian/input.ini', 'gaussianPairs', ''),
         ('curvedSample', 'models/curved_likelihood/input.ini', 'gaussianPairs', ''),
         ('rastriginSampleA', 'models/rastrigin/input.ini_T_L_T_B.eg', 'rastriginPairs', ''),
         ('rastriginSampleB', 'models/rastrigin/input.ini_Tune_Ladder_Tune_Proporal', 'rastriginPairs', 'the same as input.ini.latest'),
         ('rastriginSampleC', 'models/rastrigin/input.ini_noTune_Ladder_Tune_Proporal', 'rastriginPairs', ''),
         ('rastriginSampleD', 'models/rastrigin/input.ini_noTune_Ladder_noTune_Proporal', 'rastriginPairs', ''),
         ('eggboxSample', 'models/eggbox/input.ini', 'gaussianPairs', '')]
TEXTS = [('orbitSample', 'models/fit_orbit/input.ini'), ('hierSample', 'models/hier_R/input.ini')]


def lit(s):
    return '[]' if s == '' else 'c!"%s"' % s.replace('\\', '\\\\').replace('"', '\\"').replace('\t', '\\t')


def sign(s):
    if s[:1] == '-': return '.minus', s[1:]
    if s[:1] == '+': return '.plus', s[1:]
    return '.none', s


def digits(s):
    assert re.fullmatch('[0-9]*', s), s
    return '[' + ', '.join(s) + ']'


def int_(s):
    g, r = sign(s)
    return '⟨%s, %s⟩' % (g, digits(r))


def dec(s):
    g, r = sign(s)
    m = re.fullmatch(r'([0-9]*)(?:\.([0-9]*))?(?:e([-+]?[0-9]+))?', r)
    return '⟨%s, %s, %s, %s⟩' % (g, digits(m[1]), 'none' if m[2] is None else 'some ' + digits(m[2]), 'none' if m[3] is None else 'some ' + int_(m[3]))


def read(path):
    text = open('/repo/' + path).read()
    assert text.endswith('\n')
    return text[:-1].split('\n')


out = ['''import Verif.Spec.Texts

/-!
# The sample configuration files

The texts of the sample files of the repository, line by line, with the values written in them and the white space around the values. Written by tools/samples.py.
-/

namespace NiiC
namespace Samples
open Spec

/-- A text with the given lines. -/
def textOf (lines : List Str) : Str := (lines.map (· ++ ['\\n'])).flatten

/-- A sample file: its lines, its comments and empty lines, the values and ranges written, and the white space before and behind the value of each name. -/
structure Sample where
  lines : List Str
  comments : List Str
  settings : Settings
  ranges : List (DecText × DecText)
  space : List (Str × Str × Str)
''']


def emit_lines(lines):
    return '[' + ',\n    '.join(lit(l) for l in lines) + ']'


for name, path, pairs, note in FILES:
    lines = read(path)
    vals, space, comments = {}, [], []
    extra = [x + s for x in PAIRS[pairs] for s in ('_min', '_max')]
    for l in lines:
        m = re.fullmatch(r'([A-Za-z_]+):([ \t]*)(.*?)([ \t]*)', l)
        if m and (m[1] in CORE or m[1] in extra) and not l.startswith('#'):
            vals[m[1]] = m[3]
            space.append((m[1], m[2], m[4]))
        else:
            comments.append(l)
    assert set(vals) == set(CORE) | set(extra), (path, set(vals) ^ (set(CORE) | set(extra)))
    out.append('/-- %s%s -/\ndef %s : Sample where' % (path, ', ' + note if note else '', name))
    out.append('  lines := ' + emit_lines(lines))
    out.append('  comments := ' + emit_lines(comments))
    f = []
    for k, v in CORE.items():
        t = vals[k]
        if v == 'betas':
            parts = t.split(',')
            f.append('beta0 := ' + dec(parts[0]))
            f.append('betas := [' + ', '.join('(%s, %s)' % (lit(re.match('[ \t]*', p)[0]), dec(p.strip(' \t'))) for p in parts[1:]) + ']')
        elif v in WORDS: f.append('%s := %s' % (v, lit(t)))
        elif v in DECS: f.append('%s := %s' % (v, dec(t)))
        else: f.append('%s := %s' % (v, int_(t)))
    out.append('  settings :=\n    { ' + '\n      '.join(f) + ' }')
    out.append('  ranges := [' + ', '.join('(%s, %s)' % (dec(vals[x + '_min']), dec(vals[x + '_max'])) for x in PAIRS[pairs]) + ']')
    out.append('  space := [' + ',\n    '.join('(%s, %s, %s)' % (lit(a), lit(b), lit(c)) for a, b, c in space) + ']\n')
for name, path in TEXTS:
    out.append('/-- The lines of %s -/\ndef %s : List Str :=\n  ' % (path, name) + emit_lines(read(path)) + '\n')
out.append('end Samples\nend NiiC\n')
open('/verif/lean/Verif/Model/Samples.lean', 'w').write('\n'.join(out))
